import Verif.Model.AccessUnwind

/-!
# `get` and `get_mut` of `Inclusive` when functions of the user panic (src/inclusive/get.rs)

As in Model/AccessUnwind.  Simplification, as in Model/Inclusive: the cell obtained from the back is dropped before the back
is written to.
-/

namespace Byoc.Unwind

open M

variable {K V : Type}

/-- src/inclusive/get.rs 13-49.  `clone` (src/inclusive/inclusive.rs 44-51) sets the flag, then calls the user's `clone`. -/
def inclusiveDowngrade {S T : Type} (UF : Unwinding S K (InclCell V)) (UB : Unwinding T K (InclCell V))
    (AB : Using T K (InclCell V)) (k : K) : M (S × T) Bool := do
  match ← snd (AB.get k InclCell.clone fun _ => InclCell.clone) with
  | none => return false
  | some c => do
    let popped ← fst (UF.push [(k, c.clone)])
    if (popped.filter fun e => e.2.updated) = [] then return true
    let _ ← snd (UB.takeMultiple ((popped.filter fun e => e.2.updated).map Prod.fst))
    let out ← snd (UB.push (popped.filter fun e => e.2.updated))
    if out = [] then return true else fail

/-- src/inclusive/get.rs 90-101 and 120-131, for a front operation `op`; `cell f` is what the use `f` of the value does to
the cell of the front. -/
def inclusiveUse {S T : Type} (UF : Unwinding S K (InclCell V)) (UB : Unwinding T K (InclCell V))
    (AB : Using T K (InclCell V)) (cell : (V → V) → InclCell V → InclCell V)
    (op : K → (InclCell V → InclCell V) → (Nat → InclCell V → InclCell V) → M S (Option (InclCell V)))
    (k : K) (f : V → V) (half : Nat → V → V) : M (S × T) (Option V) := do
  let found ← fst (UF.contains k)
  let found ← if found then pure true else inclusiveDowngrade UF UB AB k
  if found then do
    let o ← fst (op k (cell f) fun n => cell (half n))
    return o.map InclCell.value
  else return none

/-- src/inclusive/get.rs 81-132. -/
def inclusiveUsing {S T : Type} (UF : Unwinding S K (InclCell V)) (UB : Unwinding T K (InclCell V))
    (AF : Using S K (InclCell V)) (AB : Using T K (InclCell V)) : Using (S × T) K V where
  get := inclusiveUse UF UB AB InclCell.read AF.get
  getMut := inclusiveUse UF UB AB InclCell.write AF.getMut

end Byoc.Unwind
