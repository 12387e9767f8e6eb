import Verif.Model.BTree

/-!
# Model of `BTree` with its reference counters

Model/BTree.lean describes the container for batches without repeated keys.  With a repeated key the
two indexes disagree, and whether `as_value` (src/btree/btree.rs 128-130, `Rc::try_unwrap`) panics depends on whether the value
in the map is still shared with the set.  Here each entry of the map says so.

When `(Rc<V>, K)` is inserted in the set and an equal pair is there, the new pair is dropped: the entry of the map is the only owner
of its value.  Otherwise the set owns a clone, until the pair is removed from the set.
-/

namespace Byoc

/-- src/btree/btree.rs 69-81; an entry of the map is a key, a value and whether the set holds a clone of its `Rc`. -/
structure RcTree (K V : Type) where
  capacity : Nat
  totalSize : Nat
  set : List (V × K)
  map : List (K × (V × Bool))
deriving DecidableEq, Repr

namespace RcTree

variable {K V : Type}

/-- src/btree/btree.rs 98-106. -/
def new (size : Nat) : RcTree K V := { capacity := size, totalSize := 0, set := [], map := [] }

/-- The elements of the map. -/
def elems (t : RcTree K V) : List (K × V) := t.map.map fun e => (e.1, e.2.1)

/-- src/btree/building_block.rs 39-46: the set is cleared first, then nothing is shared. -/
def flush (t : RcTree K V) : List (K × V) × RcTree K V :=
  (t.elems, { t with totalSize := 0, set := [], map := [] })

variable [LinearOrder K] [LinearOrder V]

/-- src/btree/building_block.rs 48-50. -/
def contains (t : RcTree K V) (k : K) : Bool := t.map.any (fun e => decide (e.1 = k))

/-- src/btree/btree.rs 132-141. -/
def insertUnchecked : RcTree K V → List (K × V) → RcTree K V
  | t, [] => t
  | t, (k, v) :: l =>
    insertUnchecked { t with
      set := setInsert t.set (v, k), map := mapInsert t.map (k, (v, decide ((v, k) ∉ t.set))) } l

/-- src/btree/building_block.rs 132-139.  The clone of the pair is dropped, then the value found in the map is
unwrapped: this panics if there is none, or if it is shared with another pair. -/
def removeAll : List (K × (V × Bool)) → List (V × K) → Res (List (K × V) × List (K × (V × Bool)))
  | map, [] => .ok ([], map)
  | map, (v, k) :: l => do
    let (o, map) := mapRemove map k
    let (v', shared) ← Res.unwrap o
    if v' = v ∨ shared = false then
      let (out, map) ← removeAll map l
      return ((k, v') :: out, map)
    else .panic

/-- src/btree/building_block.rs 111-141. -/
def pop (sz : K × V → Nat) (t : RcTree K V) (size : Nat) : Res (List (K × V) × RcTree K V) := do
  if t.map = [] then return ([], t)
  if t.totalSize ≤ size then return t.flush
  let (_, cutSize, o) := findCutAtSize (fun e : V × K => sz (e.2, e.1)) size t.set
  let e ← Res.unwrap o
  let total ← Res.sub t.totalSize cutSize
  let outSet := t.set.filter (fun x => decide (pairLe e x))
  let set := t.set.filter (fun x => decide (¬ pairLe e x))
  let (out, map) ← removeAll t.map outSet
  return (out, { t with totalSize := total, set := set, map := map })

/-- src/btree/building_block.rs 143-152: the pair removed from the set is the one that may share the value. -/
def take (sz : K × V → Nat) (t : RcTree K V) (k : K) : Res (Option (K × V) × RcTree K V) :=
  match mapRemove t.map k with
  | (none, _) => .ok (none, t)
  | (some (v, _), map) => do
    let total ← Res.sub t.totalSize (sz (k, v))
    return (some (k, v), { t with totalSize := total, set := t.set.erase (v, k), map := map })

/-- src/btree/building_block.rs 69-100. -/
def push (sz : K × V → Nat) (t : RcTree K V) (elements : List (K × V)) :
    Res (List (K × V) × RcTree K V) := do
  let size := total sz elements
  if size ≥ t.capacity then
    let (out, t) := t.flush
    let t := { t.insertUnchecked elements with totalSize := size }
    if size > t.capacity then
      let (out', t) ← t.pop sz (size - t.capacity)
      return (out ++ out', t)
    else return (out, t)
  else
    let (out, t) ← defaultTakeMultiple (take sz) t (elements.map Prod.fst)
    let room ← Res.sub t.capacity t.totalSize
    let (out', t) ← if room < size then t.pop sz (size - room) else pure ([], t)
    let t := t.insertUnchecked elements
    return (out ++ out', { t with totalSize := t.totalSize + size })

end RcTree

/-- `BTree<K, V>` as a building block, for any batch. -/
def rcBlock {K V : Type} [LinearOrder K] [LinearOrder V] (sz : K × V → Nat) : Block K V where
  State := RcTree K V
  capacity t := t.capacity
  size t := t.totalSize
  contains t k := .ok (t.contains k, t)
  take t k := t.take sz k
  takeMultiple t ks := do
    let (out, t) ← defaultTakeMultiple (RcTree.take sz) t ks
    return (out, ks, t)
  pop t n := t.pop sz n
  push t l := t.push sz l
  flush t := .ok t.flush

end Byoc
