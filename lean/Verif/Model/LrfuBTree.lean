import Verif.Model.F32
import Verif.Model.BTree

/-!
# Model of a `BTree` decorated with `Lrfu`

src/btree, src/decorator/building_block.rs, src/decorator/lrfu.rs, src/utils/timestamp.rs.  The order of the values is
not fixed: each comparison of two cells reads the clock twice.  Here the clock is `Counter` (timestamp.rs 60-77): every
reading is one more than the one before.  Elements have the default size of one.

Simplification: the elements of the `BTreeSet` are searched one after the other, as in a node of the standard library
(up to 11 elements); in a larger tree fewer are compared.
-/

namespace Byoc.LrfuBTree

variable {K V : Type}

/-- src/btree/btree.rs 69-81; `now` is the next reading of the counter. -/
structure State (K V : Type) where
  capacity : Nat
  totalSize : Nat
  set : List (LrfuCell32 V × K)
  map : List (K × LrfuCell32 V)
  now : Nat

/-- src/btree/btree.rs 98-106. -/
def new (size now : Nat) : State K V := ⟨size, 0, [], [], now⟩

/-- `Ord::cmp` of `(Rc<LrfuCell<V>>, K)`: the cells, at readings `t` and `t + 1`, then the keys. -/
def cmpPair [LinearOrder K] (t : Nat) (x y : LrfuCell32 V × K) : Ordering :=
  (x.1.cmp t (t + 1) y.1).then (compare x.2 y.2)

/-- The search of `x` in a node of a `BTreeSet`: whether an equal element is found, the index where the search ends, and
the next reading of the clock. -/
def search [LinearOrder K] (x : LrfuCell32 V × K) : Nat → List (LrfuCell32 V × K) → Bool × Nat × Nat
  | now, [] => (false, 0, now)
  | now, y :: l => match cmpPair now x y with
    | .gt => let (b, i, n) := search x (now + 2) l
      (b, i + 1, n)
    | .eq => (true, 0, now + 2)
    | .lt => (false, 0, now + 2)

/-- `BTreeSet::insert`. -/
def setInsert [LinearOrder K] (now : Nat) (set : List (LrfuCell32 V × K)) (x : LrfuCell32 V × K) :
    List (LrfuCell32 V × K) × Nat :=
  let (found, i, now) := search x now set
  (if found then set else set.take i ++ x :: set.drop i, now)

/-- `BTreeSet::remove`. -/
def setRemove [LinearOrder K] (now : Nat) (set : List (LrfuCell32 V × K)) (x : LrfuCell32 V × K) :
    List (LrfuCell32 V × K) × Nat :=
  let (found, i, now) := search x now set
  (if found then set.eraseIdx i else set, now)

/-- src/btree/building_block.rs 39-46. -/
def flush (s : State K V) : List (K × LrfuCell32 V) × State K V :=
  (s.map, { s with totalSize := 0, set := [], map := [] })

/-- src/btree/building_block.rs 48-50. -/
def contains [LinearOrder K] (s : State K V) (k : K) : Bool := s.map.any (fun e => decide (e.1 = k))

/-- src/btree/building_block.rs 143-152: the value is shared, and `as_value` (btree.rs 128-130) panics, when the set still
holds the element.  (Keys are distinct in the set: an element of it with this key is this one.) -/
def take [LinearOrder K] (s : State K V) (k : K) : Res (Option (K × LrfuCell32 V) × State K V) :=
  match s.map.find? (fun e => decide (e.1 = k)) with
  | none => .ok (none, s)
  | some (_, c) => do
    let total ← Res.sub s.totalSize 1
    let (set, now) := setRemove s.now s.set (c, k)
    if set.any (fun e => decide (e.2 = k)) then .panic
    else pure (some (k, c), { s with totalSize := total, set := set, map := s.map.filter (fun e => decide (e.1 ≠ k)), now := now })

/-- src/btree/building_block.rs 132-139: the elements split off the set are removed from the map. -/
def removeAll [LinearOrder K] : List (K × LrfuCell32 V) → List (LrfuCell32 V × K) →
    Res (List (K × LrfuCell32 V) × List (K × LrfuCell32 V))
  | map, [] => .ok ([], map)
  | map, (_, k) :: l => do
    let (_, c) ← Res.unwrap (map.find? (fun e => decide (e.1 = k)))
    let (out, map) ← removeAll (map.filter (fun e => decide (e.1 ≠ k))) l
    pure ((k, c) :: out, map)

/-- src/btree/building_block.rs 111-141: `split_off` searches the element. -/
def pop [LinearOrder K] (s : State K V) (size : Nat) : Res (List (K × LrfuCell32 V) × State K V) :=
  if s.map.isEmpty then .ok ([], s)
  else if s.totalSize ≤ size then .ok (flush s)
  else do
    let (_, cutSize, o) := findCutAtSize (fun _ => 1) size s.set
    let e ← Res.unwrap o
    let total ← Res.sub s.totalSize cutSize
    let (_, i, now) := search e s.now s.set
    let (out, map) ← removeAll s.map (s.set.drop i)
    pure (out, { s with totalSize := total, set := s.set.take i, map := map, now := now })

/-- src/btree/btree.rs 132-141. -/
def insertUnchecked [LinearOrder K] : State K V → List (K × LrfuCell32 V) → State K V
  | s, [] => s
  | s, (k, c) :: l =>
    let (set, now) := setInsert s.now s.set (c, k)
    insertUnchecked { s with set := set, map := mapInsert s.map (k, c), now := now } l

/-- src/btree/building_block.rs 69-100. -/
def pushCells [LinearOrder K] (s : State K V) (elements : List (K × LrfuCell32 V)) :
    Res (List (K × LrfuCell32 V) × State K V) := do
  let size := elements.length
  if size ≥ s.capacity then
    let (out, s) := flush s
    let s := { insertUnchecked s elements with totalSize := size }
    if size > s.capacity then
      let (out', s) ← pop s (size - s.capacity)
      pure (out ++ out', s)
    else pure (out, s)
  else
    let (out, s) ← defaultTakeMultiple take s (elements.map Prod.fst)
    let room ← Res.sub s.capacity s.totalSize
    let (out', s) ← if room < size then pop s (size - room) else pure ([], s)
    let s := insertUnchecked s elements
    pure (out ++ out', { s with totalSize := s.totalSize + size })

/-- src/decorator/lrfu.rs 146-148 and 157-165: `wrap` makes cells at consecutive readings. -/
def wrapAll (e : F32) : Nat → List (K × V) → Res (List (K × LrfuCell32 V) × Nat)
  | now, [] => .ok ([], now)
  | now, (k, v) :: l => do
    let c ← LrfuCell32.new v e now
    let (out, now) ← wrapAll e (now + 1) l
    pure ((k, c) :: out, now)

/-- src/decorator/building_block.rs 80-93: `push` of the decorated container. -/
def push [LinearOrder K] (e : F32) (s : State K V) (l : List (K × V)) : Res (List (K × V) × State K V) := do
  let (cells, now) ← wrapAll e s.now l
  let (out, s) ← pushCells { s with now := now } cells
  pure (out.map fun x => (x.1, x.2.value), s)

/-- Calls on the decorated container.  `get` is `take` to begin with (src/btree/get.rs 42-58). -/
inductive Call (K V : Type) where
  | push (l : List (K × V))
  | pop (n : Nat)
  | take (k : K)
  | get (k : K)
  | flush

/-- What a call hands back. -/
def exec [LinearOrder K] (e : F32) (s : State K V) : Call K V → Res (List (K × V) × State K V)
  | .push l => push e s l
  | .pop n => do
    let (out, s) ← pop s n
    pure (out.map fun x => (x.1, x.2.value), s)
  | .take k => do
    let (o, s) ← take s k
    pure (o.toList.map fun x => (x.1, x.2.value), s)
  | .get k => do
    -- the cell holds the element until it is dropped: here at once, unused
    let (o, s) ← take s k
    match o with
    | none => pure ([], s)
    | some x => do
      let (out, s) ← pushCells s [x]
      if out.isEmpty then pure ([(x.1, x.2.value)], s) else .panic
  | .flush => .ok ((flush s).1.map fun x => (x.1, x.2.value), (flush s).2)

def execs [LinearOrder K] (e : F32) : State K V → List (Call K V) → Res (List (K × V) × State K V)
  | s, [] => .ok ([], s)
  | s, c :: cs => do
    let (out, s) ← exec e s c
    let (outs, s) ← execs e s cs
    pure (out ++ outs, s)

end Byoc.LrfuBTree
