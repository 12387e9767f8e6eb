import Verif.Model.Policies
import Verif.Model.Compressed

/-!
# Cells dereferenced any number of times

`GetOps` (`Verif/Spec.lean`) is a lookup whose cell is used once.  Here the cell may be kept and
dereferenced any number of times, mutably or not, before it is dropped: src/decorator/get.rs 25-43,
src/array/get.rs 12-50, src/compression/get.rs 14-84, src/stream/get.rs 9-60 and
src/stream/io_vec.rs 146-190.
-/

namespace Byoc

variable {K V : Type}

/-- What the user does with a cell: read through `deref`, or replace the value by its image under `f`
through `deref_mut`. -/
inductive Use (V : Type) where
  | read
  | write (f : V → V)

/-- What the user makes of the value. -/
def Use.apply : Use V → V → V
  | .read, v => v
  | .write f, v => f v

/-- What a use does to the object in the cell: is it `deref_mut`, and what becomes of the object.
Through `deref`, an object with interior mutability may change (the statistics of the policies,
src/decorator/lru.rs 116-119, src/decorator/lrfu.rs 202-205). -/
structure Touch (V : Type) where
  mutably : Bool
  eff : V → V

/-- A value without interior mutability. -/
def Use.touch : Use V → Touch V
  | .read => ⟨false, id⟩
  | .write f => ⟨true, f⟩

/-- All the uses of a cell. -/
def effect : List (Touch V) → V → V
  | [], v => v
  | t :: ts, v => effect ts (t.eff v)

/-- Lookups, the uses of the cell, and its drop. -/
structure CellOps (B : Block K V) where
  get : B.State → K → List (Touch V) → Res (Option V × B.State)
  getMut : B.State → K → List (Touch V) → Res (Option V × B.State)

/-- src/array/get.rs 12-78: both cells point to the value inside the array. -/
def arrayCells [LinearOrder K] (sz : K × V → Nat) (srt srtS : Sorter (K × V)) :
    CellOps (arrayBlock sz srt srtS) where
  get a k ts := .ok (Array.getMut a k (effect ts))
  getMut a k ts := .ok (Array.getMut a k (effect ts))

/-- Containers whose cells point to the stored value: the cell handed out by `Exclusive`
(src/exclusive/get.rs 12-24, 34-46), `Profiler` (src/profiler/get.rs 24-58), `Sequential`
(src/sequential/get.rs 59-104) and `FlushStopper` over `Array`s is the cell of the `Array` which holds the
element (src/array/get.rs 12-50), found, or moved there, by the lookup. -/
def cellsOf {B : Block K V} (G : GetOps B) : CellOps B where
  get s k ts := G.get s k (effect ts)
  getMut s k ts := G.getMut s k (effect ts)

/-- src/compression/get.rs: `get` (94-107) makes a copy, which is dropped; `get_mut` (118-143) makes a
copy too, written back (71-84) only if `deref_mut` (65-68) was called. -/
def compressedCells [LinearOrder K] (z : Lz4) (cd : VecCodec (K × V)) (srt srtU : Sorter (K × V)) :
    CellOps (compressed z cd srt srtU) where
  get c k _ := Compressed.get z cd c k id
  getMut c k ts := if ts.any Touch.mutably then Compressed.getMut z cd c k (effect ts)
    else Compressed.get z cd c k id

/-- src/stream/get.rs and src/stream/io_vec.rs 146-190: the same. -/
def byteStreamCells {R : Type} [LinearOrder K] [LinearOrder R] (cd : Codec (K × V)) (rank : V → R) :
    CellOps (byteStreamBy cd rank) where
  get s k _ := ByteStream.get cd s k id
  getMut s k ts := if ts.any Touch.mutably then ByteStream.getMut cd s k (effect ts)
    else ByteStream.get cd s k id

/-- src/decorator/get.rs 25-43: each use of a decorated cell is one use of the cell of the container,
in which `Decoration::get` (resp. `get_mut`) is called. -/
def Access.touches {D : Decoration V} (A : Access D) : D.Factory → List (Touch V) → List (Touch D.Item)
  | _, [] => []
  | fac, t :: ts => ⟨t.mutably, A.access fac t.eff⟩ :: A.touches (A.tick fac) ts

/-- The clock after the uses. -/
def Access.ticks {D : Decoration V} (A : Access D) : D.Factory → List (Touch V) → D.Factory
  | fac, [] => fac
  | fac, _ :: ts => A.ticks (A.tick fac) ts

/-- src/decorator/get.rs 45-83. -/
def decoratorCells {D : Decoration V} (A : Access D) {C : Block K D.Item} (G : CellOps C) :
    CellOps (decorator D C) where
  get s k ts := do
    let (o, c) ← G.get s.1 k (A.touches s.2 ts)
    return (o.map D.unwrap, (c, if o.isSome then A.ticks s.2 ts else s.2))
  getMut s k ts := do
    let (o, c) ← G.getMut s.1 k (A.touches s.2 ts)
    return (o.map D.unwrap, (c, if o.isSome then A.ticks s.2 ts else s.2))

/-- What a user does: calls methods, or looks a key up, uses the cell (`n` reads for `get`, anything for
`get_mut`) and drops it. -/
inductive Session (K V : Type) where
  | op (o : Op K V)
  | get (k : K) (n : Nat)
  | getMut (k : K) (us : List (Use V))

/-- One session: what is handed out, and the container afterwards. -/
def Block.session {B : Block K V} (G : CellOps B) (s : B.State) :
    Session K V → Res (List (K × V) × B.State)
  | .op o => B.step s o
  | .get k n => do
    let (_, s) ← G.get s k (List.replicate n Use.read.touch)
    pure ([], s)
  | .getMut k us => do
    let (_, s) ← G.getMut s k (us.map Use.touch)
    pure ([], s)

/-- A history of sessions. -/
def Block.sessions {B : Block K V} (G : CellOps B) (s : B.State) :
    List (Session K V) → Res (List (K × V) × B.State)
  | [] => .ok ([], s)
  | x :: xs => do
    let (out, s) ← Block.session G s x
    let (outs, s) ← Block.sessions G s xs
    pure (out ++ outs, s)

end Byoc
