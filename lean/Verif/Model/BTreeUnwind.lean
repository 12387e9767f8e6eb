import Verif.Model.StoreUnwind
import Verif.Model.Get

/-!
# `get` and `get_mut` of `BTree` when functions of the user panic (src/btree/get.rs)

As in Model/AccessUnwind, but the cell owns the element: it was taken out of the container, and the drop of the cell pushes
it back, also when the cell is dropped by the unwinding.  (A second panic then aborts the process: not modelled.)
Comparisons are taken to return, as in the section on `BTree` of Model/Unwind.
-/

namespace Byoc.Unwind

open M

variable {K V : Type} [LinearOrder K] [LinearOrder V]

/-- src/btree/get.rs 30-36: the drop of a cell by the unwinding of a panic of its user. -/
def btreeSave (sz : K × V → Nat) (k : K) (x : V) (t : BTree K V) : Res (BTree K V) := do
  let (out, t') ← t.push sz [(k, x)]
  if out = [] then return t' else .panic

/-- src/btree/get.rs 30-59: `take`, the use of the cell, its drop. -/
def btreeUse (sz : K × V → Nat) (k : K) (f : V → V) (half : Nat → V → V) : M (BTree K V) (Option V) := do
  match ← btreeTake sz k with
  | none => return none
  | some (k', v) => do
    let v' ← useCell f half v (btreeSave sz k')
    let out ← btreePush sz [(k', v')]
    if out = [] then return some v else fail

end Byoc.Unwind
