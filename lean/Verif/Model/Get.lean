import Verif.Model.Array
import Verif.Model.BTree
import Verif.Model.Combinators

/-!
# `Get` and `GetMut` (src/traits/get.rs) and their implementations

See `GetOps` in `Verif/Spec.lean` for how a call and the life of its cell are modelled.
-/

namespace Byoc

variable {K V : Type}

/-- src/array/get.rs 52-78: both cells point to the stored value. -/
def arrayGet [LinearOrder K] (sz : K × V → Nat) (srt srtS : Sorter (K × V)) :
    GetOps (arrayBlock sz srt srtS) where
  get a k f := .ok (Array.getMut a k f)
  getMut a k f := .ok (Array.getMut a k f)

/-- src/btree/get.rs 39-58. -/
def btreeGet [LinearOrder K] [LinearOrder V] (sz : K × V → Nat) : GetOps (btreeBlock (V := V) sz) where
  get t k f := BTree.getMut sz t k f
  getMut t k f := BTree.getMut sz t k f

/-- src/exclusive/get.rs 12-24 and 34-46, for a front operation `op`. -/
def exclusiveAccess (F B : Block K V) (op : F.State → K → (V → V) → Res (Option V × F.State))
    (s : F.State × B.State) (k : K) (f : V → V) : Res (Option V × (F.State × B.State)) := do
  let (b, fr) ← F.contains s.1 k
  if b then
    let (o, fr) ← op fr k f
    return (o, (fr, s.2))
  let (b, s) ← exclusiveDowngrade F B (fr, s.2) k
  if b then
    let (o, fr) ← op s.1 k f
    return (o, (fr, s.2))
  else return (none, s)

/-- src/exclusive/get.rs. -/
def exclusiveGet [LinearOrder K] {F B : Block K V} (G : GetOps F) : GetOps (exclusive F B) where
  get := exclusiveAccess F B G.get
  getMut := exclusiveAccess F B G.getMut

/-- src/batch/get.rs 16-18 and 34-36: `find_map`. -/
def batchAccess {S : Type} (op : S → K → (V → V) → Res (Option V × S)) :
    List S → K → (V → V) → Res (Option V × List S)
  | [], _, _ => .ok (none, [])
  | c :: cs, k, f => do
    let (o, c) ← op c k f
    match o with
    | some v => return (some v, c :: cs)
    | none => do
      let (o, cs) ← batchAccess op cs k f
      return (o, c :: cs)

/-- src/batch/get.rs. -/
def batchGet {C : Block K V} (G : GetOps C) : GetOps (batch C) where
  get := batchAccess G.get
  getMut := batchAccess G.getMut

/-- src/associative/get.rs 13-16 and 27-30. -/
def associativeAccess {S : Type} (hash : K → Nat) (op : S → K → (V → V) → Res (Option V × S))
    (s : List S) (k : K) (f : V → V) : Res (Option V × List S) := do
  let i ← Associative.set hash s.length k
  let c ← Res.unwrap s[i]?
  let (o, c) ← op c k f
  return (o, s.set i c)

/-- src/associative/get.rs. -/
def associativeGet (hash : K → Nat) {C : Block K V} (G : GetOps C) : GetOps (associative hash C) where
  get := associativeAccess hash G.get
  getMut := associativeAccess hash G.getMut

/-- src/flush_stopper/get.rs. -/
def flushStopperGet {C : Block K V} (G : GetOps C) : GetOps (flushStopper C) where
  get := G.get
  getMut := G.getMut

/-- src/sequential/get.rs 59-80 and 83-104 with nobody else using the container: the lock is taken,
the call forwarded, and the lock released when the cell is dropped (or at once if nothing is found). -/
def sequentialGet {C : Block K V} (G : GetOps C) : GetOps (sequential C) where
  get := G.get
  getMut := G.getMut

/-- src/utils/shared_ptr.rs, `Get` and `GetMut` for `SharedPtr`, with nobody else using the pointer:
forward. -/
def viaDefaultGet {C : Block K V} (G : GetOps C) : GetOps (viaDefault C) where
  get := G.get
  getMut := G.getMut

/-- src/profiler/get.rs 24-36 and 46-58. -/
def profilerGet {C : Block K V} (G : GetOps C) : GetOps (profiler C) where
  get s k f := do
    let (o, c) ← G.get s.1 k f
    let st := { s.2 with get := s.2.get.add 1 0 }
    return (o, (c, st.hitOrMiss o.isSome))
  getMut s k f := do
    let (o, c) ← G.getMut s.1 k f
    let st := { s.2 with getMut := s.2.getMut.add 1 0 }
    return (o, (c, st.hitOrMiss o.isSome))

/-- What an access through a decorated cell does: `Decoration::get`/`get_mut`
(src/decorator/decorator.rs).  `access fac f i` is the item after the access made when the factory
(with its clock) is `fac`, the value being changed by `f`; `tick` is the factory (clock) afterwards. -/
structure Access {V : Type} (D : Decoration V) where
  access : D.Factory → (V → V) → D.Item → D.Item
  tick : D.Factory → D.Factory

/-- src/decorator/get.rs 47-83. -/
def decoratorGet {D : Decoration V} (A : Access D) {C : Block K D.Item} (G : GetOps C) :
    GetOps (decorator D C) where
  get s k f := do
    let (o, c) ← G.get s.1 k (A.access s.2 f)
    return (o.map D.unwrap, (c, if o.isSome then A.tick s.2 else s.2))
  getMut s k f := do
    let (o, c) ← G.getMut s.1 k (A.access s.2 f)
    return (o.map D.unwrap, (c, if o.isSome then A.tick s.2 else s.2))

end Byoc
