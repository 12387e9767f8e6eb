import Verif.Model.Get
import Mathlib.Algebra.Order.Field.Basic
import Mathlib.Algebra.Order.Field.Rat

/-!
# Model of the eviction policies

src/decorator/fifo.rs, src/decorator/lru.rs, src/decorator/lrfu.rs, src/decorator/default.rs and
src/utils/timestamp.rs.

Simplifications: counters are unbounded (the code's wrap at 2^64); the 32 bit floating point numbers
of `Lrfu` are exact rationals.  A clock is the sequence of the values its successive readings return
(`clock n` is what the `n`-th call of `T::now()` returns), which covers both `Counter` (other users of
the global counter make gaps) and `Clock`.
-/

namespace Byoc

variable {V T : Type}

/-- `Ordering` as the code reverses it: fifo.rs 85-89, lru.rs 90-94. -/
def reversed : Ordering → Ordering
  | .lt => .gt
  | .gt => .lt
  | .eq => .eq

/-- fifo.rs 14-17. -/
structure FifoCell (V : Type) where
  value : V
  counter : Nat
deriving DecidableEq, Repr

/-- fifo.rs 84-90. -/
def FifoCell.cmp (a b : FifoCell V) : Ordering := reversed (compare a.counter b.counter)

/-- `a <= b` from `cmp` (`PartialOrd`, fifo.rs 93-97). -/
instance : LE (FifoCell V) := ⟨fun a b => a.cmp b ≠ .gt⟩

/-- fifo.rs 69-78 (`wrap`), 108-110 (`unwrap`). -/
def fifo (V : Type) : Decoration V where
  Factory := Nat
  Item := FifoCell V
  wrap (n : Nat) v := ((⟨v, n⟩ : FifoCell V), (n + 1 : Nat))
  unwrap c := c.value

/-- fifo.rs 111-116: `get` and `get_mut` give access to the value only. -/
def fifoAccess (V : Type) : Access (fifo V) where
  access _ f (c : FifoCell V) := (⟨f c.value, c.counter⟩ : FifoCell V)
  tick n := n

/-- fifo.rs 61-67: `Clone for Fifo` copies the counter. -/
def fifoClone (n : Nat) : Nat := n

/-- lru.rs 14-17. -/
structure LruCell (V T : Type) where
  value : V
  timestamp : T
deriving DecidableEq, Repr

/-- lru.rs 89-95. -/
def LruCell.cmp [LinearOrder T] (a b : LruCell V T) : Ordering :=
  reversed (compare a.timestamp b.timestamp)

/-- lru.rs 98-102. -/
instance [LinearOrder T] : LE (LruCell V T) := ⟨fun a b => a.cmp b ≠ .gt⟩

/-- lru.rs 66-74 (`wrap`), 113-115 (`unwrap`).  The factory is the number of readings of the clock
made so far. -/
def lru (V : Type) (clock : Nat → T) : Decoration V where
  Factory := Nat
  Item := LruCell V T
  wrap (n : Nat) v := ((⟨v, clock n⟩ : LruCell V T), (n + 1 : Nat))
  unwrap c := c.value

/-- lru.rs 116-123: `get` and `get_mut` set the time stamp to `T::now()`. -/
def lruAccess (V : Type) (clock : Nat → T) : Access (lru V clock) where
  access n f (c : LruCell V T) := (⟨f c.value, clock n⟩ : LruCell V T)
  tick (n : Nat) := (n + 1 : Nat)

/-- lrfu.rs 23-30. -/
structure LrfuStats where
  last : Nat
  eavg : ℚ
  exponent : ℚ
deriving DecidableEq

/-- timestamp.rs 74-76 and 105-107: `diff` of a reading `a` and an earlier one `b`. -/
def tsDiff (a b : Nat) : ℚ := (a : ℚ) - (b : ℚ)

/-- lrfu.rs 36-42, at reading `now`. -/
def LrfuStats.new (exponent : ℚ) (now : Nat) : LrfuStats := ⟨now, 0, exponent⟩

/-- lrfu.rs 49-54. -/
def LrfuStats.touch (s : LrfuStats) (now : Nat) : LrfuStats :=
  { s with last := now, eavg := tsDiff now s.last + s.eavg / s.exponent }

/-- lrfu.rs 57-59. -/
def LrfuStats.score (s : LrfuStats) (now : Nat) : ℚ := tsDiff now s.last + s.eavg / s.exponent

/-- lrfu.rs 71-74. -/
structure LrfuCell (V : Type) where
  value : V
  stats : LrfuStats

/-- lrfu.rs 157-165: panics if the exponent is not positive. -/
def LrfuCell.new (v : V) (exponent : ℚ) (now : Nat) : Res (LrfuCell V) :=
  if exponent ≤ 0 then .panic else .ok ⟨v, .new exponent now⟩

/-- lrfu.rs 177-186: each of the two scores reads the clock.  `n` is the number of readings made before
the comparison, which makes two. -/
def LrfuCell.cmp (clock : Nat → Nat) (n : Nat) (a b : LrfuCell V) : Ordering :=
  compare (a.stats.score (clock n)) (b.stats.score (clock (n + 1)))

/-- lrfu.rs 207-214: an access touches the statistics. -/
def LrfuCell.access (clock : Nat → Nat) (n : Nat) (f : V → V) (c : LrfuCell V) : LrfuCell V :=
  ⟨f c.value, c.stats.touch (clock n)⟩

/-- lrfu.rs 143-147 (`wrap`), 157-165, 199-201 (`unwrap`), for a positive exponent: `wrap` reads the clock. -/
def lrfu (V : Type) (exponent : ℚ) (clock : Nat → Nat) : Decoration V where
  Factory := Nat
  Item := LrfuCell V
  wrap (n : Nat) v := ((⟨v, .new exponent (clock n)⟩ : LrfuCell V), (n + 1 : Nat))
  unwrap c := c.value

/-- lrfu.rs 202-209: `get` and `get_mut` touch the statistics. -/
def lrfuAccess (V : Type) (exponent : ℚ) (clock : Nat → Nat) : Access (lrfu V exponent clock) where
  access (n : Nat) f (c : LrfuCell V) := c.access clock n f
  tick (n : Nat) := (n + 1 : Nat)

/-- default.rs 23-31, 48-54: the value itself, with its own order. -/
def defaultDecoration (V : Type) : Decoration V where
  Factory := Unit
  Item := V
  wrap _ v := (v, ())
  unwrap v := v

/-- timestamp.rs 60-64: `COUNTER_STATE.fetch_add(1)`, one atomic step on a 64 bit word.  Returns what
the caller gets and the new counter. -/
def counterNow (state : Nat) : Nat × Nat := (state, (state + 1) % 2 ^ 64)

/-- Any number of threads calling `Counter::now()`: the schedule says who calls next; the result is who
got what, in order, and the final counter. -/
def counterRun : Nat → List Nat → List (Nat × Nat) × Nat
  | st, [] => ([], st)
  | st, i :: sched =>
    let (v, st') := counterNow st
    let (l, st'') := counterRun st' sched
    ((i, v) :: l, st'')

/-! ## Clones of a decorated concurrent container -/

/-- A concurrent container `C` (`Sequential`, used without contention) decorated by `D`, and its
clones: src/decorator/concurrent.rs 27-35 shares the container and clones the factory. -/
structure Clones {K V : Type} (D : Decoration V) (C : Block K D.Item) where
  cont : C.State
  factories : List D.Factory

/-- Clone handle `i`, or call a method on handle `i`. -/
inductive CAct (K V : Type) where
  | clone (i : Nat)
  | op (i : Nat) (o : Op K V)

/-- concurrent.rs 27-35 (`dup` is the factory's `Clone`), building_block.rs 15-112.  Actions on handles
that do not exist do nothing. -/
def Clones.step {K V : Type} {D : Decoration V} {C : Block K D.Item} (dup : D.Factory → D.Factory)
    (s : Clones D C) : CAct K V → Res (List (K × V) × Clones D C)
  | .clone i => match s.factories[i]? with
    | some f => .ok ([], ⟨s.cont, s.factories ++ [dup f]⟩)
    | none => .ok ([], s)
  | .op i o => match s.factories[i]? with
    | some f => do
      let (out, (c, f')) ← (decorator D C).step (s.cont, f) o
      pure (out, ⟨c, s.factories.set i f'⟩)
    | none => .ok ([], s)

def Clones.run {K V : Type} {D : Decoration V} {C : Block K D.Item} (dup : D.Factory → D.Factory)
    (s : Clones D C) : List (CAct K V) → Res (List (K × V) × Clones D C)
  | [] => .ok ([], s)
  | a :: as => do
    let (out, s') ← s.step dup a
    let (outs, s'') ← s'.run dup as
    pure (out ++ outs, s'')

end Byoc
