import Verif.Model.Inclusive
import Mathlib.Order.Lex
import Mathlib.Data.Prod.Lex
import Mathlib.Order.BooleanAlgebra.Basic

/-!
# Model of `Inclusive` with the life of the cell of the back level

`downgrade` (src/inclusive/get.rs 13-49) holds the cell it got from the back while it writes to the back: the
variable `c` is dropped at the end of the function (`LifeTimeGuard` has no destructor of its own and its lifetime is
that of a reference, so that the compiler does not take the drop as a use).  Model/Inclusive.lean drops it at once,
which is the same only if dropping it does nothing.
-/

namespace Byoc

variable {K V : Type}

/-- A container whose cells are held: `hold s k f` is `get(k)`, the value seen and the cell, on which `f` was done;
`release` is what dropping the cell does. -/
structure Holding (B : Block K V) : Type 1 where
  Cell : Type
  hold : B.State → K → (V → V) → Res (Option (V × Cell) × B.State)
  release : B.State → Cell → Res B.State

namespace Holding

/-- Cells that do nothing when dropped: pointers (src/array/get.rs) and copies (`CompressedCell`,
src/compression/get.rs 11-20), and the cells made of those (`InclusiveGetCell`, `LruCell`, ...). -/
def plain {B : Block K V} (G : GetOps B) : Holding B where
  Cell := Unit
  hold s k f := do
    let (o, s) ← G.get s k f
    return (o.map fun v => (v, ()), s)
  release s _ := .ok s

end Holding

/-- src/btree/get.rs 31-37: dropping the cell pushes the element back, which must hand back nothing. -/
def BTree.putBack [LinearOrder K] [LinearOrder V] (sz : K × V → Nat) (t : BTree K V) (e : K × V) : Res (BTree K V) := do
  let (out, t) ← BTree.push sz t [e]
  if out = [] then return t else .panic

/-- src/btree/get.rs 39-58: the element is taken out and pushed back when the cell is dropped. -/
def Holding.btree [LinearOrder K] [LinearOrder V] (sz : K × V → Nat) : Holding (btreeBlock (V := V) sz) where
  Cell := K × V
  hold t k f := do
    let (o, t) ← BTree.take sz t k
    return (o.map fun e => (e.2, (e.1, f e.2)), t)
  release t c := BTree.putBack sz t c

/-- src/sequential/building_block.rs used by one thread, with the number of cells of `get` it holds, each of which has
the lock for reading.  `lock_mut` (`take`, `pop`, `push`: lines 35, 47, 53) then waits for itself: the call does not
return, written here `Res.panic`.  `lock` (the others) is granted. -/
def sequentialHeld (C : Block K V) : Block K V where
  State := C.State × Nat
  capacity s := C.capacity s.1
  size s := C.size s.1
  contains s k := do let (b, c) ← C.contains s.1 k; return (b, (c, s.2))
  take s k := if s.2 = 0 then do let (o, c) ← C.take s.1 k; return (o, (c, 0)) else .panic
  takeMultiple s ks := do let (out, ks, c) ← C.takeMultiple s.1 ks; return (out, ks, (c, s.2))
  pop s n := if s.2 = 0 then do let (out, c) ← C.pop s.1 n; return (out, (c, 0)) else .panic
  push s l := if s.2 = 0 then do let (out, c) ← C.push s.1 l; return (out, (c, 0)) else .panic
  flush s := do let (out, c) ← C.flush s.1; return (out, (c, s.2))

/-- src/sequential/get.rs 34-38, 65-79: the lock is held for reading as long as the cell. -/
def Holding.sequential {C : Block K V} (H : Holding C) : Holding (sequentialHeld C) where
  Cell := H.Cell
  hold s k f := do
    let (o, c) ← H.hold s.1 k f
    return (o, (c, if o.isSome then s.2 + 1 else s.2))
  release s c := do
    let t ← H.release s.1 c
    return (t, s.2 - 1)

/-! ## A batch whose elements have an address -/

namespace BatchAt

/-- The state of a `Batch`: the elements of the list with the address of their node, and an address never used. -/
structure State (C : Block K V) where
  next : Nat
  bb : List (Nat × C.State)

/-- src/batch/building_block.rs 100-110: a container is moved out of its node (which is freed) and into a new one. -/
def pushLoop (C : Block K V) : Nat → List (K × V) → List (Nat × C.State) → List (Nat × C.State) →
    Res (List (K × V) × Nat × List (Nat × C.State))
  | next, values, [], done => .ok (values, next, done)
  | next, [], bb, done => .ok ([], next, bb ++ done)
  | next, values, (_, c) :: bb, done => do
    let (values, c) ← C.push c values
    pushLoop C (next + 1) values bb (done ++ [(next, c)])

/-- src/batch/building_block.rs 98-113. -/
def push (C : Block K V) (s : State C) (l : List (K × V)) : Res (List (K × V) × State C) := do
  let (out, n, bb) ← pushLoop C s.next l s.bb []
  return (out, ⟨n, bb⟩)

/-- src/batch/get.rs 12-14: `find_map`; the cell knows the address of its container. -/
def hold {C : Block K V} (H : Holding C) (k : K) (f : V → V) : List (Nat × C.State) →
    Res (Option (V × (Nat × H.Cell)) × List (Nat × C.State))
  | [] => .ok (none, [])
  | (a, c) :: bb => do
    let (o, c) ← H.hold c k f
    match o with
    | some (v, x) => return (some (v, (a, x)), (a, c) :: bb)
    | none => do
      let (o, bb) ← hold H k f bb
      return (o, (a, c) :: bb)

/-- Dropping the cell writes to the container at the address it knows.  There may be none left there: the memory was
freed, which is written here `Res.panic`. -/
def release {C : Block K V} (H : Holding C) (a : Nat) (x : H.Cell) : List (Nat × C.State) →
    Res (List (Nat × C.State))
  | [] => .panic
  | (b, c) :: bb => if a = b then do
      let c ← H.release c x
      return (b, c) :: bb
    else do
      let bb ← release H a x bb
      return (b, c) :: bb

end BatchAt

/-- src/batch/building_block.rs, with addresses; what does not move containers is that of `batch`. -/
def batchAt (C : Block K V) : Block K V where
  State := BatchAt.State C
  capacity s := (batch C).capacity (s.bb.map Prod.snd)
  size s := (batch C).size (s.bb.map Prod.snd)
  contains s k := do
    let (b, l) ← (batch C).contains (s.bb.map Prod.snd) k
    return (b, { s with bb := (s.bb.map Prod.fst).zip l })
  take s k := do
    let (b, l) ← (batch C).take (s.bb.map Prod.snd) k
    return (b, { s with bb := (s.bb.map Prod.fst).zip l })
  takeMultiple s ks := do
    let (b, ks, l) ← (batch C).takeMultiple (s.bb.map Prod.snd) ks
    return (b, ks, { s with bb := (s.bb.map Prod.fst).zip l })
  pop s n := do
    let (b, l) ← (batch C).pop (s.bb.map Prod.snd) n
    return (b, { s with bb := (s.bb.map Prod.fst).zip l })
  push := BatchAt.push C
  flush s := do
    let (b, l) ← (batch C).flush (s.bb.map Prod.snd)
    return (b, { s with bb := (s.bb.map Prod.fst).zip l })

/-- src/batch/get.rs 12-14. -/
def Holding.batchAt {C : Block K V} (H : Holding C) : Holding (batchAt C) where
  Cell := Nat × H.Cell
  hold s k f := do
    let (o, bb) ← BatchAt.hold H k f s.bb
    return (o, { s with bb })
  release s c := do
    let bb ← BatchAt.release H c.1 c.2 s.bb
    return { s with bb }

/-- src/inclusive/get.rs 13-49: `downgrade`. -/
def inclusiveDowngradeHeld (F B : Block K (InclCell V)) (H : Holding B) (s : F.State × B.State) (k : K) :
    Res (Bool × (F.State × B.State)) := do
  let (o, b) ← H.hold s.2 k InclCell.clone
  match o with
  | none => return (false, (s.1, b))
  | some (c, cell) => do
    let (popped, f) ← F.push s.1 [(k, c.clone)]
    let popped := popped.filter fun e => e.2.updated
    if popped = [] then
      let b ← H.release b cell
      return (true, (f, b))
    else
      let (_, _, b) ← B.takeMultiple b (popped.map Prod.fst)
      let (out, b) ← B.push b popped
      if out = [] then
        let b ← H.release b cell
        return (true, (f, b))
      else Res.panic

/-- src/inclusive/get.rs 90-101 and 120-131, for a front operation `op`. -/
def inclusiveAccessHeld (F B : Block K (InclCell V)) (H : Holding B)
    (op : F.State → K → (InclCell V → InclCell V) → Res (Option (InclCell V) × F.State))
    (s : F.State × B.State) (k : K) (f : InclCell V → InclCell V) :
    Res (Option V × (F.State × B.State)) := do
  let (b, fr) ← F.contains s.1 k
  let (b, s) ← if b then pure (true, (fr, s.2)) else inclusiveDowngradeHeld F B H (fr, s.2) k
  if b then
    let (o, fr) ← op s.1 k f
    return (o.map InclCell.value, (fr, s.2))
  else return (none, s)

/-- src/inclusive/get.rs 81-132. -/
def inclusiveGetHeld {F B : Block K (InclCell V)} (GF : GetOps F) (H : Holding B) :
    GetOps (inclusive F B) where
  get s k f := inclusiveAccessHeld F B H GF.get s k (InclCell.read f)
  getMut s k f := inclusiveAccessHeld F B H GF.getMut s k (InclCell.write f)

/-- src/inclusive/inclusive.rs 9: the derived order, by value, then flags. -/
instance InclCell.linearOrder [LinearOrder V] : LinearOrder (InclCell V) :=
  LinearOrder.lift' (fun c => toLex (c.value, toLex (c.updated, c.cloned))) (by
    rintro ⟨a, b, c⟩ ⟨d, e, f⟩ h
    have h1 := congrArg ofLex h
    simp only [ofLex_toLex, Prod.mk.injEq] at h1
    have h2 := congrArg ofLex h1.2
    simp only [ofLex_toLex, Prod.mk.injEq] at h2
    rw [h1.1, h2.1, h2.2])

end Byoc
