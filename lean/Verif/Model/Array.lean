import Verif.Model.Std

/-!
# Model of `Array` (src/array/array.rs, src/array/building_block.rs, src/array/get.rs)
-/

namespace Byoc

/-- src/array/array.rs 62-67.  `element_size` is a parameter (`sz`) of the methods below. -/
structure Array (K V : Type) where
  capacity : Nat
  totalSize : Nat
  values : List (K × V)
deriving DecidableEq, Repr

namespace Array

variable {K V : Type}

/-- src/array/array.rs 79-86. -/
def new (size : Nat) : Array K V := { capacity := size, totalSize := 0, values := [] }

/-- src/array/building_block.rs 25-28. -/
def flush (a : Array K V) : List (K × V) × Array K V :=
  (a.values, { a with totalSize := 0, values := [] })

/-- src/array/building_block.rs 30-32. -/
def contains [DecidableEq K] (a : Array K V) (k : K) : Bool :=
  a.values.any (fun e => decide (e.1 = k))

/-- src/array/building_block.rs 55-80.  `srt` is `sort_unstable_by` on values. -/
def pop (sz : K × V → Nat) (srt : Sorter (K × V)) (a : Array K V) (size : Nat) :
    Res (List (K × V) × Array K V) := do
  if a.values = [] then return ([], a)
  if a.totalSize ≤ size then
    return (a.values, { a with totalSize := 0, values := [] })
  let sorted := srt.run a.values
  let (cut, cutSize, _) := findCutAtSize sz size sorted
  let t ← Res.sub a.totalSize cutSize
  return (sorted.drop cut, { a with totalSize := t, values := sorted.take cut })

/-- src/array/building_block.rs 101-136.  `srtS` is the stable `sort_by` on values. -/
def push (sz : K × V → Nat) (srt srtS : Sorter (K × V)) (a : Array K V) (elements : List (K × V)) :
    Res (List (K × V) × Array K V) := do
  let size := total sz elements
  let room ← Res.sub a.capacity a.totalSize
  if size ≤ room then
    return ([], { a with totalSize := a.totalSize + size, values := a.values ++ elements })
  if size = a.capacity then
    return (a.values, { a with totalSize := size, values := elements })
  if size > a.capacity then
    let sorted := srtS.run elements
    let (cut, cutSize, _) := findCutAtSize sz (size - a.capacity) sorted
    let t ← Res.sub size cutSize
    return (a.values ++ sorted.drop cut, { a with totalSize := t, values := sorted.take cut })
  let (out, a') ← a.pop sz srt (size - room)
  return (out, { a' with totalSize := a'.totalSize + size, values := a'.values ++ elements })

/-- src/array/building_block.rs 138-153. -/
def take [DecidableEq K] (sz : K × V → Nat) (a : Array K V) (k : K) :
    Res (Option (K × V) × Array K V) :=
  match findKey a.values k with
  | none => .ok (none, a)
  | some i => do
    let e ← Res.unwrap a.values[i]?
    let t ← Res.sub a.totalSize (sz e)
    return (some e, { a with totalSize := t, values := swapRemove a.values i })

/-- src/array/building_block.rs 165-172: the loop `for i in (0..n).rev()`; the argument is the
number of indices still to visit. -/
def takeMultipleLoop [LinearOrder K] (sz : K × V → Nat) :
    Nat → Array K V → List K → List (K × V) → Res (List (K × V) × List K × Array K V)
  | 0, a, keys, ret => .ok (ret, keys, a)
  | i + 1, a, keys, ret => do
    let e ← Res.unwrap a.values[i]?
    match bsearch keys e.1 with
    | none => takeMultipleLoop sz i a keys ret
    | some j => do
      let t ← Res.sub a.totalSize (sz e)
      takeMultipleLoop sz i { a with totalSize := t, values := swapRemove a.values i }
        (keys.eraseIdx j) (ret ++ [e])

/-- src/array/building_block.rs 162-174. -/
def takeMultiple [LinearOrder K] (sz : K × V → Nat) (a : Array K V) (keys : List K) :
    Res (List (K × V) × List K × Array K V) :=
  takeMultipleLoop sz a.values.length a (sortKeys keys) []

/-- src/array/get.rs 55-63: `get(key)` then read the value through the cell. -/
def get [DecidableEq K] (a : Array K V) (k : K) : Option V :=
  (a.values.find? (fun e => decide (e.1 = k))).map Prod.snd

/-- src/array/get.rs 69-78: `get_mut(key)`, then replace the value `v` by `f v` through the cell.
The size counter is not updated by the code. -/
def getMut [DecidableEq K] (a : Array K V) (k : K) (f : V → V) : Option V × Array K V :=
  match findKey a.values k with
  | none => (none, a)
  | some i =>
    match a.values[i]? with
    | none => (none, a)
    | some (k', v) => (some v, { a with values := a.values.set i (k', f v) })

end Array

/-- `Array<(K, V)>` as a building block. -/
def arrayBlock {K V : Type} [LinearOrder K] (sz : K × V → Nat) (srt srtS : Sorter (K × V)) :
    Block K V where
  State := Array K V
  capacity a := a.capacity
  size a := a.totalSize
  contains a k := .ok (a.contains k, a)
  take a k := a.take sz k
  takeMultiple a ks := a.takeMultiple sz ks
  pop a n := a.pop sz srt n
  push a l := a.push sz srt srtS l
  flush a := .ok a.flush

end Byoc
