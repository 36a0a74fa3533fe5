import Verif.Blob.Model
import Verif.Blob.Runs
import Verif.Blob.Table
import Verif.Blob.TableProofs
import Verif.Cbor.Blocks
import Verif.Cbor.Car
import Verif.Cbor.Codec
import Verif.Cbor.Model
import Verif.Cbor.Proofs
import Verif.Cbor.SameProofs
import Verif.Cbor.Spec
import Verif.Datastore.Entity
import Verif.Datastore.EntityProofs
import Verif.Did.Handle
import Verif.Did.HandleProofs
import Verif.Did.HandleSpec
import Verif.Did.Model
import Verif.Did.Regex
import Verif.Example
import Verif.Firehose.Backfill
import Verif.Firehose.BackfillProofs
import Verif.Firehose.Collect
import Verif.Firehose.CollectLog
import Verif.Firehose.CollectProofs
import Verif.Firehose.ConcurrentProofs
import Verif.Firehose.Consumer
import Verif.Firehose.CoreProofs
import Verif.Firehose.Example
import Verif.Firehose.InOrder
import Verif.Firehose.Joint
import Verif.Firehose.JointProofs
import Verif.Firehose.Mirror
import Verif.Firehose.MirrorProofs
import Verif.Firehose.Model
import Verif.Firehose.PassProofs
import Verif.Firehose.Payload
import Verif.Firehose.PayloadProofs
import Verif.Firehose.PayloadProofs2
import Verif.Firehose.Preload
import Verif.Firehose.ProgressProofs
import Verif.Firehose.Relay
import Verif.Firehose.SessionProofs
import Verif.Firehose.Sessions
import Verif.Firehose.SizeProofs
import Verif.Firehose.Start
import Verif.Firehose.StartProofs
import Verif.Firehose.StepProofs
import Verif.Firehose.SubProofs
import Verif.Firehose.SubscribeRepos
import Verif.Firehose.Wake
import Verif.Firehose.WakeGapProofs
import Verif.Firehose.WakeProofs
import Verif.Memcache.Lease
import Verif.Memcache.LeaseProofs
import Verif.Memcache.SequenceProofs
import Verif.Memcache.Sequences
import Verif.Mst.Basic
import Verif.Mst.Canon
import Verif.Mst.CovProofs
import Verif.Mst.CovProofs2
import Verif.Mst.CovProofs3
import Verif.Mst.Cover
import Verif.Mst.CoverProofs
import Verif.Mst.CoverProofs2
import Verif.Mst.CoverProofs3
import Verif.Mst.CoverRead
import Verif.Mst.CoverSize
import Verif.Mst.CoverSpec
import Verif.Mst.Diff
import Verif.Mst.DiffProofs
import Verif.Mst.DiffProofs2
import Verif.Mst.DiffSpec
import Verif.Mst.Exec
import Verif.Mst.ExecProofs
import Verif.Mst.Grammar
import Verif.Mst.Heap
import Verif.Mst.HeapExec
import Verif.Mst.HeapProofs
import Verif.Mst.HeapSim
import Verif.Mst.HeapSim2
import Verif.Mst.HeapSim3
import Verif.Mst.HeapWalk
import Verif.Mst.HeapWalkProofs
import Verif.Mst.Invert
import Verif.Mst.InvertProofs
import Verif.Mst.Lazy
import Verif.Mst.LazyLacks
import Verif.Mst.LazyNeeds
import Verif.Mst.LazyProofs
import Verif.Mst.Listing
import Verif.Mst.ListingProofs
import Verif.Mst.Locate
import Verif.Mst.Model
import Verif.Mst.MonoProofs
import Verif.Mst.Ops
import Verif.Mst.Ops2
import Verif.Mst.Ops3
import Verif.Mst.PathProofs
import Verif.Mst.Refresh
import Verif.Mst.RunClean
import Verif.Mst.SizeProofs
import Verif.Mst.SoundProofs
import Verif.Mst.Spec
import Verif.Mst.Untrusted
import Verif.Mst.VisitProofs
import Verif.Mst.WalkerProofs
import Verif.Mst.WriteNeeds
import Verif.Props.C01
import Verif.Props.C02
import Verif.Props.C03
import Verif.Props.C04
import Verif.Props.C05
import Verif.Props.C06
import Verif.Props.C07
import Verif.Props.C08
import Verif.Props.C09
import Verif.Props.C10
import Verif.Props.C11
import Verif.Props.C12
import Verif.Props.C13
import Verif.Props.C14
import Verif.Props.C15
import Verif.Props.C16
import Verif.Props.C17
import Verif.Props.C18
import Verif.Props.C19
import Verif.Props.C20
import Verif.Props.C21
import Verif.Props.C22
import Verif.Props.C23
import Verif.Props.C24
import Verif.Props.C25
import Verif.Props.C26
import Verif.Props.C27
import Verif.Props.C28
import Verif.Props.C29
import Verif.Props.C30
import Verif.Props.C31
import Verif.Props.C32
import Verif.Props.C33
import Verif.Props.C34
import Verif.Props.C35
import Verif.Props.C36
import Verif.Props.C37
import Verif.Props.C38
import Verif.Props.C39
import Verif.Props.C40
import Verif.Props.C41
import Verif.Props.C42
import Verif.Props.C43
import Verif.Props.C44
import Verif.Props.C45
import Verif.Props.C46
import Verif.Props.C47
import Verif.Props.C48
import Verif.Props.C49
import Verif.Props.C50
import Verif.Props.C51
import Verif.Props.C52
import Verif.Props.C53
import Verif.Props.C54
import Verif.Props.C55
import Verif.Props.C56
import Verif.Props.C57
import Verif.Props.C58
import Verif.Props.C59
import Verif.Props.C60
import Verif.Props.C61
import Verif.Props.C62
import Verif.Props.C63
import Verif.Props.C64
import Verif.Props.C65
import Verif.Props.C66
import Verif.Props.C67
import Verif.Props.C68
import Verif.Props.C69
import Verif.Props.C70
import Verif.Props.C71
import Verif.Props.C72
import Verif.Props.C73
import Verif.Props.C74
import Verif.Props.C75
import Verif.Props.C76
import Verif.Props.C76Retried
import Verif.Props.C77
import Verif.Props.C78
import Verif.Props.C79
import Verif.Props.C80
import Verif.Props.C81
import Verif.Props.C82
import Verif.Props.C83
import Verif.Props.C84
import Verif.Props.C85
import Verif.Py
import Verif.Sha256
import Verif.Sha256Proofs
import Verif.Storage.AddedProofs
import Verif.Storage.AloneProofs
import Verif.Storage.AttemptProofs
import Verif.Storage.BlockProofs
import Verif.Storage.CommitProofs
import Verif.Storage.Concurrent
import Verif.Storage.ConcurrentLog
import Verif.Storage.ConcurrentProofs
import Verif.Storage.EffectProofs
import Verif.Storage.EventProofs
import Verif.Storage.Events
import Verif.Storage.Example
import Verif.Storage.Exec
import Verif.Storage.FreshProofs
import Verif.Storage.GroupProofs
import Verif.Storage.GrowProofs
import Verif.Storage.Import
import Verif.Storage.ImportProofs
import Verif.Storage.KeyProofs
import Verif.Storage.LogProofs
import Verif.Storage.Model
import Verif.Storage.NextProofs
import Verif.Storage.NodeProofs
import Verif.Storage.PlainProofs
import Verif.Storage.PlainReach
import Verif.Storage.PlainWorld
import Verif.Storage.ReachProofs
import Verif.Storage.ReadProofs
import Verif.Storage.RetryProofs
import Verif.Storage.SeqProofs
import Verif.Storage.Sequences
import Verif.Storage.SignSpec
import Verif.Storage.SizeProofs
import Verif.Storage.Spec
import Verif.Storage.StatusProofs
import Verif.Storage.StepProofs
import Verif.Storage.TableProofs
import Verif.Storage.TxProofs
import Verif.Storage.UntidyProofs
import Verif.Storage.WorldProofs
import Verif.Storage.WriteProofs
import Verif.Util.AtUri
import Verif.Util.Sig
import Verif.Util.SigProofs
import Verif.Util.Tid
import Verif.Util.TidProofs
import Verif.Xrpc.AgainProofs
import Verif.Xrpc.CompleteProofs
import Verif.Xrpc.CrudProofs
import Verif.Xrpc.Example
import Verif.Xrpc.Export
import Verif.Xrpc.ExportProofs
import Verif.Xrpc.ExportSpec
import Verif.Xrpc.GetRepoProofs
import Verif.Xrpc.Import
import Verif.Xrpc.ImportProofs
import Verif.Xrpc.KeptProofs
import Verif.Xrpc.LinearProofs
import Verif.Xrpc.ListProofs
import Verif.Xrpc.LoadProofs
import Verif.Xrpc.Model
import Verif.Xrpc.Overlap
import Verif.Xrpc.OverlapProofs
import Verif.Xrpc.PageProofs
import Verif.Xrpc.PlanProofs
import Verif.Xrpc.QuietProofs
import Verif.Xrpc.RecordSpec
import Verif.Xrpc.Reference
import Verif.Xrpc.ReferenceProofs
import Verif.Xrpc.Serve
import Verif.Xrpc.ServeProofs
import Verif.Xrpc.Sessions
import Verif.Xrpc.Start
import Verif.Xrpc.Survive
import Verif.Xrpc.SurviveProofs
import Verif.Xrpc.SyncRecord
import Verif.Xrpc.SyncRecordProofs
import Verif.Xrpc.Together
import Verif.Xrpc.TogetherProofs
import Verif.Xrpc.UniqueProofs
