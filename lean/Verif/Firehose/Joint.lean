import Verif.Firehose.InOrder
import Verif.Firehose.Mirror
import Verif.Props.C57

/-!
# The storage and the firehose together (model for C66)

The requests that are served (Storage/Model.lean) write the log that the collector and the subscribers
(Firehose/Model.lean) read.
-/

namespace Arroba.Store

variable {C R : Type} [DecidableEq C]

/-- The server and the firehose. The collector started at some time, and had then preloaded the events from `p` on.

* Requests are served one after the other (`Step`), while the collector and the subscribers make steps of their own.
* What a request has written to the log can be read by them at once, or later, and one event after the other: an event
  only after those before.
* The collector's queries see the log as it was at some time (C34), no exception ends a step in which it hands out an
  event (firehose.py 324-330), and there is no garbage collection on its thread (C37).
* Unless there were no events at all when the collector started, one was preloaded (see `C66_window_false`). -/
inductive Joint (L : Lib C R) (be : Backend) (al : Allow) (cfg : Fire.Cfg) (p : Nat) : World C R → Fire.State → Prop
  | start {w : World C R} {stored events : List Fire.Ev} (now : Int) (hw : Reach L be al w)
      (h : Fire.Starts cfg stored events) (hd : stored.Pairwise (fun a b => b.seq < a.seq)) (hp : p ≤ w.last + 1)
      (hm : ∀ e, e ∈ events ↔ e ∈ stored ∧ p ≤ e.seq) (hn : events = [] → stored = [])
      (hl : ∀ n, (∃ e ∈ stored, e.seq = n) ↔ ∃ b, Logged L w 0 none b ∧ b.seq = n) :
      Joint L be al cfg p w (.init cfg.window stored events w.last now)
  | serve {w w' : World C R} {s : Fire.State} (h : Joint L be al cfg p w s) (hs : Step L be al w w') :
      Joint L be al cfg p w' s
  | «show» {w : World C R} {s s' : Fire.State} (h : Joint L be al cfg p w s) (e : Fire.Ev) {b : Block C R}
      (hb : Logged L w 0 none b) (he : b.seq = e.seq)
      (hprev : ∀ b', Logged L w 0 none b' → b'.seq < e.seq → ∃ x ∈ s.stored, x.seq = b'.seq)
      (hs : Fire.act cfg false s (.store e) = some s') : Joint L be al cfg p w s'
  | fire {w : World C R} {s s' : Fire.State} (h : Joint L be al cfg p w s) (a : Fire.Act)
      (hs : Fire.act cfg false s a = some s') (h1 : ∀ e, a ≠ .store e)
      (h2 : ∀ e sc, a = .read e → s.col = .scanning sc →
        ∃ t, t <:+ s.stored ∧ e ∈ t ∧ ∀ m ∈ t, sc.pos ≤ m.seq → e.seq ≤ m.seq)
      (h3 : ∀ now, a ≠ .crash now) : Joint L be al cfg p w s'

/-- The sequence number in a message. -/
def Message.seq : Message C R → Option Nat
  | .commit _ p => some p.seq
  | .event _ e => some e.seq
  | .record _ => none

/-- A message with number `n` that the server, now in state `w`, can have made: from the log as it was at some time
(`w'`), and at that time or later (`v`). -/
def MadeFor (L : Lib C R) (be : Backend) (al : Allow) (w : World C R) (n : Nat) (msg : Message C R) : Prop :=
  ∃ w' v start q s, Reach L be al w' ∧ Relation.ReflTransGen (Step L be al) w' w ∧ Reach L be al v ∧
    (∀ c b, w'.read c = some b → v.read c = some b) ∧ Query L w' start none q ∧
    s ∈ (readEvents L w' q).1 ∧ processEvent L v none s = .ok msg ∧ msg.seq = some n

end Arroba.Store
