import Verif.Model.Std

/-!
# Model of `BTree` (src/btree/btree.rs, src/btree/building_block.rs, src/btree/get.rs)

The container keeps two indexes of the same elements: a `BTreeSet<(Rc<V>, K)>` ordered by value then
key, used to choose victims, and a `BTreeMap<K, Rc<V>>` used for lookups.  Both are modelled as sorted
lists.
-/

namespace Byoc

/-- Order of `(Rc<V>, K)`: by value, then by key (derived `Ord` on tuples). -/
def pairLe {K V : Type} [LinearOrder K] [LinearOrder V] (a b : V × K) : Prop :=
  a.1 < b.1 ∨ (a.1 = b.1 ∧ a.2 ≤ b.2)

instance {K V : Type} [LinearOrder K] [LinearOrder V] :
    DecidableRel (pairLe : V × K → V × K → Prop) := fun a b => by unfold pairLe; infer_instance

/-- `BTreeSet::insert`: an equal element already there is kept and the new one dropped. -/
def setInsert {K V : Type} [LinearOrder K] [LinearOrder V] (set : List (V × K)) (e : V × K) :
    List (V × K) :=
  if e ∈ set then set else set.orderedInsert pairLe e

/-- `BTreeMap::insert`: replaces the value of an equal key. -/
def mapInsert {K V : Type} [LinearOrder K] (map : List (K × V)) (e : K × V) : List (K × V) :=
  (map.filter (fun x => decide (x.1 ≠ e.1))).orderedInsert (fun a b => a.1 ≤ b.1) e

/-- `BTreeMap::remove`. -/
def mapRemove {K V : Type} [LinearOrder K] (map : List (K × V)) (k : K) :
    Option V × List (K × V) :=
  ((map.find? (fun x => decide (x.1 = k))).map Prod.snd, map.filter (fun x => decide (x.1 ≠ k)))

/-- src/btree/btree.rs 69-81.  `element_size` is a parameter (`sz`) of the methods. -/
structure BTree (K V : Type) where
  capacity : Nat
  totalSize : Nat
  set : List (V × K)
  map : List (K × V)
deriving DecidableEq, Repr

namespace BTree

variable {K V : Type}

/-- src/btree/btree.rs 98-106. -/
def new (size : Nat) : BTree K V := { capacity := size, totalSize := 0, set := [], map := [] }

/-- src/btree/building_block.rs 39-46. -/
def flush (t : BTree K V) : List (K × V) × BTree K V :=
  (t.map, { t with totalSize := 0, set := [], map := [] })

variable [LinearOrder K] [LinearOrder V]

/-- src/btree/building_block.rs 48-50. -/
def contains (t : BTree K V) (k : K) : Bool := t.map.any (fun e => decide (e.1 = k))

/-- src/btree/btree.rs 132-141: `insert_values_unchecked`. -/
def insertUnchecked : BTree K V → List (K × V) → BTree K V
  | t, [] => t
  | t, (k, v) :: l =>
    insertUnchecked { t with set := setInsert t.set (v, k), map := mapInsert t.map (k, v) } l

/-- src/btree/building_block.rs 132-139: the loop over the elements split off the set.
`as_value` (src/btree/btree.rs 128-130) panics if the `Rc` in the map is still shared; when the value
found in the map is not the one of the pair being removed, its own pair is still in the set or in
the rest of the split-off part, so it is shared (unless an equal element was pushed twice in a batch: see Model/BTreeRc.lean, where the
counters are modelled). -/
def removeAll : List (K × V) → List (V × K) → Res (List (K × V) × List (K × V))
  | map, [] => .ok ([], map)
  | map, (v, k) :: l => do
    let (o, map) := mapRemove map k
    let v' ← Res.unwrap o
    if v' = v then
      let (out, map) ← removeAll map l
      return ((k, v') :: out, map)
    else .panic

/-- src/btree/building_block.rs 111-141. `set.split_off(&e)` keeps what is below `e` and returns the
rest. -/
def pop (sz : K × V → Nat) (t : BTree K V) (size : Nat) : Res (List (K × V) × BTree K V) := do
  if t.map = [] then return ([], t)
  if t.totalSize ≤ size then return t.flush
  let (_, cutSize, o) := findCutAtSize (fun e : V × K => sz (e.2, e.1)) size t.set
  let e ← Res.unwrap o
  let total ← Res.sub t.totalSize cutSize
  let outSet := t.set.filter (fun x => decide (pairLe e x))
  let set := t.set.filter (fun x => decide (¬ pairLe e x))
  let (out, map) ← removeAll t.map outSet
  return (out, { t with totalSize := total, set := set, map := map })

/-- src/btree/building_block.rs 143-152. -/
def take (sz : K × V → Nat) (t : BTree K V) (k : K) : Res (Option (K × V) × BTree K V) :=
  match mapRemove t.map k with
  | (none, _) => .ok (none, t)
  | (some v, map) => do
    let total ← Res.sub t.totalSize (sz (k, v))
    return (some (k, v), { t with totalSize := total, set := t.set.erase (v, k), map := map })

/-- src/btree/building_block.rs 69-100. -/
def push (sz : K × V → Nat) (t : BTree K V) (elements : List (K × V)) :
    Res (List (K × V) × BTree K V) := do
  let size := total sz elements
  if size ≥ t.capacity then
    let (out, t) := t.flush
    let t := { t.insertUnchecked elements with totalSize := size }
    if size > t.capacity then
      let (out', t) ← t.pop sz (size - t.capacity)
      return (out ++ out', t)
    else return (out, t)
  else
    -- the default `take_multiple` of the trait
    let (out, t) ← defaultTakeMultiple (take sz) t (elements.map Prod.fst)
    let room ← Res.sub t.capacity t.totalSize
    let (out', t) ← if room < size then t.pop sz (size - room) else pure ([], t)
    let t := t.insertUnchecked elements
    return (out ++ out', { t with totalSize := t.totalSize + size })

/-- src/btree/get.rs 31-50: `get_mut(key)`, replace the value `v` by `f v` through the cell, drop the
cell: the element was taken out and is pushed back; the push must return nothing. `get` (52-58) is
the same with a cell that is only read. -/
def getMut (sz : K × V → Nat) (t : BTree K V) (k : K) (f : V → V) :
    Res (Option V × BTree K V) := do
  let (o, t) ← t.take sz k
  match o with
  | none => return (none, t)
  | some (k, v) => do
    let (out, t) ← t.push sz [(k, f v)]
    if out = [] then return (some v, t) else .panic

end BTree

/-- `BTree<K, V>` as a building block; `take_multiple` is the default of the trait
(src/traits/building_block.rs 80-82). -/
def btreeBlock {K V : Type} [LinearOrder K] [LinearOrder V] (sz : K × V → Nat) : Block K V where
  State := BTree K V
  capacity t := t.capacity
  size t := t.totalSize
  contains t k := .ok (t.contains k, t)
  take t k := t.take sz k
  takeMultiple t ks := do
    let (out, t) ← defaultTakeMultiple (BTree.take sz) t ks
    return (out, ks, t)
  pop t n := t.pop sz n
  push t l := t.push sz l
  flush t := .ok t.flush

end Byoc
