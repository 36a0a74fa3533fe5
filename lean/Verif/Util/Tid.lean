import Verif.Py

/-!
# Model of the TID functions of `arroba/util.py` (lines 32-220)

Python `int` is `Int`. A tz-aware `datetime` is its number of microseconds since the Unix epoch
(`Int`; naive datetimes are first interpreted as local time, util.py 136-137, which is not
modelled). `random.randint(0, 31)` (util.py 34) is a parameter.
-/

namespace Arroba.Tid

/-- util.py 37 `S32_CHARS`. -/
def s32Chars : Key := "234567abcdefghijklmnopqrstuvwxyz".toList

/-- util.py 94-98: the loop of `s32encode`; `encoded.insert(0, ...)` prepends. -/
def s32encodeLoop (num : Int) (encoded : Key) : Key :=
  if 0 < num then
    s32encodeLoop (num / 32) (s32Chars.getD (num % 32).toNat '2' :: encoded)
  else encoded
termination_by num.toNat
decreasing_by omega

/-- util.py 81-100 `s32encode`. -/
def s32encode (num : Int) : Key := s32encodeLoop num []

/-- util.py 103-118. `S32_CHARS.index(c)`, which raises ValueError for other characters. -/
def s32Index (c : Char) : Except Err Int :=
  match s32Chars.findIdx? (· = c) with
  | some i => .ok (i : Int)
  | none => .error .value

/-- util.py 114-118: the loop of `s32decode`. -/
def s32decodeLoop (i : Int) : Key → Except Err Int
  | [] => .ok i
  | c :: cs => do
    let x ← s32Index c
    s32decodeLoop (i * 32 + x) cs

/-- util.py 103-118 `s32decode`. -/
def s32decode (val : Key) : Except Err Int := s32decodeLoop 0 val

/-- Python's `s.ljust(w, c)`. -/
def ljust (s : Key) (w : Nat) (c : Char) : Key := s ++ List.replicate (w - s.length) c

/-- Python's `s.rjust(w, c)`. -/
def rjust (s : Key) (w : Nat) (c : Char) : Key := List.replicate (w - s.length) c ++ s

/-- util.py 142-160 `int_to_tid`; `runtimeClock` is the module variable `_clockid`. -/
def intToTid (runtimeClock : Int) (num : Int) (clockId : Option Int) : Except Err Key :=
  let clock := clockId.getD runtimeClock
  let tid := s32encode num ++ ljust (s32encode clock) 2 '2'
  if tid.length ≤ 13 then .ok (rjust tid 13 '2') else .error .assertion

/-- util.py 180-198. The argument of `tid_to_int`: a `str`, a `bytes` or something else. -/
inductive TidArg where
  | str (s : Key)
  | bytes (b : List UInt8)
  | other

/-- util.py 180-198 `tid_to_int`. `bytes.replace('-', '')` raises TypeError (`Err.attribute`). -/
def tidToInt : TidArg → Except Err Int
  | .other => .error .value
  | .bytes b => if b.length ≠ 13 then .error .value else .error .attribute
  | .str s =>
    if s.length ≠ 13 then .error .value
    else s32decode (pySlice (s.filter (· ≠ '-')) 0 (some (-2)))

/-- util.py 121-139 `datetime_to_tid` on a tz-aware datetime, given in microseconds. -/
def datetimeToTid (runtimeClock : Int) (micros : Int) (clockId : Option Int) : Except Err Key :=
  intToTid runtimeClock micros clockId

/-- util.py 163-177 `tid_to_datetime`, in microseconds since the epoch. -/
def tidToDatetime (tid : TidArg) : Except Err Int := tidToInt tid

/-- util.py 201-220 `next_tid`: given `_tid_ts_last` and the clock reading `time_ns()`, the new
value of `_tid_ts_last` and the result. -/
def nextTid (runtimeClock : Int) (last timeNs : Int) : Int × Except Err Key :=
  let last' := max (timeNs / 1000) (last + 1)
  (last', intToTid runtimeClock last' none)

/-- util.py 201-220. Successive calls with the given clock readings. -/
def nextTids (runtimeClock : Int) : Int → List Int → List (Except Err Key)
  | _, [] => []
  | last, t :: ts =>
    let r := nextTid runtimeClock last t
    r.2 :: nextTids runtimeClock r.1 ts

/-! ### Concurrent calls of `next_tid`

The statement in line 219 reads the clock and the global, and writes the global; line 220 reads
the global again. No lock is held. -/

/-- util.py 201-220. Where a thread is inside `next_tid`. -/
inductive Pc where
  | start
  | computed (new : Int)   -- the right-hand side of line 219 has been evaluated
  | stored                 -- the assignment of line 219 is done
  | returned (v : Int)     -- line 220 has read `_tid_ts_last`

/-- util.py 201-220. One atomic step of a thread: the new program counter and the new `_tid_ts_last`. -/
inductive Step : Int → Pc → Int → Pc → Prop
  | compute (last timeNs : Int) : Step last .start last (.computed (max (timeNs / 1000) (last + 1)))
  | store (last new : Int) : Step last (.computed new) new .stored
  | ret (last : Int) : Step last .stored last (.returned last)

/-- util.py 201-220. Interleavings of two threads. -/
inductive Steps : Int → Pc → Pc → Int → Pc → Pc → Prop
  | refl {l a b} : Steps l a b l a b
  | left {l a b l' a' l'' a'' b''} (h : Step l a l' a') (t : Steps l' a' b l'' a'' b'') :
      Steps l a b l'' a'' b''
  | right {l a b l' b' l'' a'' b''} (h : Step l b l' b') (t : Steps l' a b' l'' a'' b'') :
      Steps l a b l'' a'' b''

end Arroba.Tid
