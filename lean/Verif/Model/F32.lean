import Verif.Model.Policies
import Mathlib.Data.Int.Log
import Mathlib.Data.Rat.Floor

/-!
# Model of `Lrfu` in single precision

src/decorator/lrfu.rs, src/utils/timestamp.rs.  Model/Policies has exact rationals where the code has `f32`.  Here
are the operations of IEEE 754 binary32 on the values the code computes (non negative numbers, infinity, NaN): the
exact result is rounded to the nearest number with 24 significant bits and an exponent of at least -149, to the even
one in the middle of two, and becomes infinite from 2^128 on.

Simplifications: signs of zeros, payloads of NaNs, and negative exponents other than as the argument of
`LrfuCell::new`, which rejects them, are left out.
-/

namespace Byoc

/-- A value of type `f32`. -/
inductive F32 where
  | nan
  | inf
  | fin (q : ℚ)
deriving DecidableEq

namespace F32

/-- The distance between numbers of type `f32` around `x`. -/
def ulp (x : ℚ) : ℚ := 2 ^ max (Int.log 2 x - 23) (-149)

/-- The nearest integer, the even one in the middle of two. -/
def halfEven (x : ℚ) : ℤ :=
  if x - ⌊x⌋ < 1 / 2 then ⌊x⌋ else if 1 / 2 < x - ⌊x⌋ then ⌊x⌋ + 1 else if ⌊x⌋ % 2 = 0 then ⌊x⌋ else ⌊x⌋ + 1

/-- `x` with 24 significant bits. -/
def nearest (x : ℚ) : ℚ := halfEven (x / ulp x) * ulp x

/-- IEEE 754, round to nearest, ties to even; overflow gives an infinity. -/
def round (x : ℚ) : F32 := if 2 ^ 128 ≤ nearest x then inf else fin (nearest x)

/-- `a + b`. -/
def add : F32 → F32 → F32
  | nan, _ => nan
  | _, nan => nan
  | inf, _ => inf
  | _, inf => inf
  | fin a, fin b => round (a + b)

/-- `a / b`. -/
def div : F32 → F32 → F32
  | nan, _ => nan
  | _, nan => nan
  | inf, inf => nan
  | inf, fin _ => inf
  | fin _, inf => fin 0
  | fin a, fin b => if b = 0 then (if a = 0 then nan else inf) else round (a / b)

/-- `PartialOrd::partial_cmp`. -/
def partialCmp : F32 → F32 → Option Ordering
  | nan, _ => none
  | _, nan => none
  | inf, inf => some .eq
  | inf, fin _ => some .gt
  | fin _, inf => some .lt
  | fin a, fin b => some (compare a b)

/-- `x <= 0.0`. -/
def nonPos : F32 → Bool
  | fin q => q ≤ 0
  | _ => false

end F32

/-- timestamp.rs 74-76 and 105-107: the difference of two readings of the clock, an integer, cast to `f32`
(`u64 as f32`, `u128 as f32` round to nearest, ties to even).  Readings do not decrease. -/
def tsDiff32 (a b : Nat) : F32 := F32.round ((a - b : Nat) : ℚ)

/-- lrfu.rs 22-30. -/
structure LrfuStats32 where
  last : Nat
  eavg : F32
  exponent : F32
deriving DecidableEq

/-- lrfu.rs 36-42, at reading `now`. -/
def LrfuStats32.new (exponent : F32) (now : Nat) : LrfuStats32 := ⟨now, .fin 0, exponent⟩

/-- lrfu.rs 49-54. -/
def LrfuStats32.touch (s : LrfuStats32) (now : Nat) : LrfuStats32 :=
  { s with last := now, eavg := (tsDiff32 now s.last).add (s.eavg.div s.exponent) }

/-- lrfu.rs 57-59. -/
def LrfuStats32.score (s : LrfuStats32) (now : Nat) : F32 := (tsDiff32 now s.last).add (s.eavg.div s.exponent)

/-- lrfu.rs 71-74. -/
structure LrfuCell32 (V : Type) where
  value : V
  stats : LrfuStats32

/-- lrfu.rs 157-165: panics if `exponent <= 0.0`. -/
def LrfuCell32.new {V : Type} (v : V) (exponent : F32) (now : Nat) : Res (LrfuCell32 V) :=
  if exponent.nonPos then .panic else .ok ⟨v, .new exponent now⟩

/-- lrfu.rs 207-214: an access touches the statistics. -/
def LrfuCell32.access {V : Type} (now : Nat) (f : V → V) (c : LrfuCell32 V) : LrfuCell32 V :=
  ⟨f c.value, c.stats.touch now⟩

/-- lrfu.rs 177-186: each of the two scores reads the clock (readings `t` and `t'`); scores that are not ordered are
equal. -/
def LrfuCell32.cmp {V : Type} (t t' : Nat) (a b : LrfuCell32 V) : Ordering :=
  ((a.stats.score t).partialCmp (b.stats.score t')).getD .eq

end Byoc
