import Verif.Spec
import Mathlib.Data.List.Sort

/-!
# Rust standard library functions used by the containers

These follow the documented behaviour of `Vec`/slice methods (and, for `binary_search`, the loop of
the standard library), which is not part of /repo.
-/

namespace Byoc

/-- `Vec::swap_remove(i)` without the removed element: index `i` receives the last element.
(`set` past the end, when `i` is the last index, changes nothing.) -/
def swapRemove {E : Type u} (l : List E) (i : Nat) : List E :=
  match l.getLast? with
  | none => []
  | some x => l.dropLast.set i x

/-- `slice::sort` on keys (for a linear order every sorting algorithm gives the same result). -/
def sortKeys {K : Type} [LinearOrder K] (ks : List K) : List K :=
  ks.insertionSort (· ≤ ·)

/-- A concrete sorting routine for a decidable relation. -/
def Sorter.ofLe {E : Type u} (le : E → E → Prop) [DecidableRel le] : Sorter E where
  run l := l.insertionSort le
  perm l := List.perm_insertionSort le l

/-- The loop of `slice::binary_search` on `[left, right)`; `fuel` bounds the number of iterations
(the interval at least halves, so `length + 1` is enough). -/
def bsearchGo {K : Type} [LinearOrder K] (ks : List K) (k : K) : Nat → Nat → Nat → Option Nat
  | 0, _, _ => none
  | fuel + 1, left, right =>
    if left < right then
      let mid := left + (right - left) / 2
      match ks[mid]? with
      | none => none
      | some x =>
        if x = k then some mid
        else if x < k then bsearchGo ks k fuel (mid + 1) right
        else bsearchGo ks k fuel left mid
    else none

/-- `slice::binary_search`, `Ok(i)` as `some i` and `Err(_)` as `none`. -/
def bsearch {K : Type} [LinearOrder K] (ks : List K) (k : K) : Option Nat :=
  bsearchGo ks k (ks.length + 1) 0 ks.length

/-- `if let Ok(i) = keys.binary_search(k) { keys.remove(i); }` -/
def removeFound {K : Type} [LinearOrder K] (ks : List K) (k : K) : List K :=
  match bsearch ks k with
  | some j => ks.eraseIdx j
  | none => ks

/-- Index of the first element with key `k`: `iter().enumerate().find_map(..)`. -/
def findKey {K V : Type} [DecidableEq K] (l : List (K × V)) (k : K) : Option Nat :=
  l.findIdx? (fun e => decide (e.1 = k))

/-- src/utils/size.rs 27-43: body of the `try_fold`, on the reversed list, so that the index of the
head is the length of the tail. -/
def findCutGo {E : Type u} (sz : E → Nat) (size : Nat) :
    List E → Nat × Nat × Option E → Nat × Nat × Option E
  | [], st => st
  | e :: rest, (_, acc, _) =>
    let t := acc + sz e
    if t < size then findCutGo sz size rest (rest.length, t, some e)
    else (rest.length, t, some e)

/-- src/utils/size.rs 11-44: `find_cut_at_size`. -/
def findCutAtSize {E : Type u} (sz : E → Nat) (size : Nat) (l : List E) : Nat × Nat × Option E :=
  findCutGo sz size l.reverse (0, 0, none)

/-- src/traits/building_block.rs 80-82: default `take_multiple`,
`keys.iter().filter_map(|k| self.take(k)).collect()`; the key vector is left unchanged. -/
def defaultTakeMultiple {K V S : Type} (take : S → K → Res (Option (K × V) × S)) :
    S → List K → Res (List (K × V) × S)
  | s, [] => .ok ([], s)
  | s, k :: ks => do
    let (o, s) ← take s k
    let (out, s) ← defaultTakeMultiple take s ks
    pure (o.toList ++ out, s)

end Byoc
