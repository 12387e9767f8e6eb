import Verif.Model.Get

/-!
# Model of `Inclusive` (src/inclusive)

Two levels; `get` copies the element from the back into the front, so that one element may be stored
twice.  Two flags on each stored cell say whether a copy exists and whether this copy was written to.
-/

namespace Byoc

variable {K V : Type}

/-- src/inclusive/inclusive.rs 11-15. -/
structure InclCell (V : Type) where
  value : V
  updated : Bool
  cloned : Bool
deriving DecidableEq, Repr

namespace InclCell

/-- src/inclusive/inclusive.rs 19-25. -/
def new (v : V) : InclCell V := ⟨v, false, false⟩

/-- src/inclusive/inclusive.rs 44-51: what `clone` does to the cell cloned, and the clone (the two
are then equal). -/
def clone (c : InclCell V) : InclCell V := { c with cloned := true }

/-- Reading through `deref` (src/inclusive/inclusive.rs 56-58); `f` is what reading does to the
value itself. -/
def read (f : V → V) (c : InclCell V) : InclCell V := { c with value := f c.value }

/-- src/inclusive/inclusive.rs 62-67: `deref_mut`, then writing `f value`. -/
def write (f : V → V) (c : InclCell V) : InclCell V :=
  { value := f c.value, updated := c.cloned, cloned := c.cloned }

end InclCell

namespace Inclusive

/-- `|(k, v)| (k, InclusiveCell::new(v))` -/
def wrap (e : K × V) : K × InclCell V := (e.1, InclCell.new e.2)

/-- `|(k, c)| (k, c.unwrap())` -/
def unwrap (e : K × InclCell V) : K × V := (e.1, e.2.value)

/-- Keys of the elements flagged as having a copy in front (building_block.rs 88-97, 160-171). -/
def clonedKeys (l : List (K × InclCell V)) : List K :=
  l.filterMap fun e => if e.2.cloned then some e.1 else none

/-- src/inclusive/building_block.rs 128-139: the elements popped from the back, replaced by their
copy in front when there should be one (`unwrap`). -/
def popLoop (F : Block K (InclCell V)) : F.State → List (K × InclCell V) →
    Res (List (K × V) × F.State)
  | f, [] => .ok ([], f)
  | f, e :: rest =>
    if e.2.cloned then do
      let (o, f) ← F.take f e.1
      let x ← Res.unwrap o
      let (out, f) ← popLoop F f rest
      return (unwrap x :: out, f)
    else do
      let (out, f) ← popLoop F f rest
      return (unwrap e :: out, f)

end Inclusive

open Inclusive in
/-- src/inclusive/building_block.rs 17-228. -/
def inclusive (F B : Block K (InclCell V)) : Block K V where
  State := F.State × B.State
  -- lines 17-19
  capacity s := B.capacity s.2
  -- lines 26-28
  size s := B.size s.2
  -- lines 35-37
  contains s k := do
    let (b, f) ← F.contains s.1 k
    if b then return (true, (f, s.2))
    let (b, r) ← B.contains s.2 k
    return (b, (f, r))
  -- lines 51-67
  take s k := do
    let (o, b) ← B.take s.2 k
    match o with
    | none => return (none, (s.1, b))
    | some e =>
      if e.2.cloned then do
        let (o, f) ← F.take s.1 k
        let x ← Res.unwrap o
        return (some (unwrap x), (f, b))
      else return (some (unwrap e), (s.1, b))
  -- lines 81-107
  takeMultiple s ks := do
    let (back, ks, b) ← B.takeMultiple s.2 ks
    let (front, _, f) ← F.takeMultiple s.1 (clonedKeys back)
    return (((back.filter fun e => !e.2.cloned) ++ front).map unwrap, ks, (f, b))
  -- lines 116-140
  pop s size := do
    let (out, b) ← B.pop s.2 size
    let (out, f) ← popLoop F s.1 out
    return (out, (f, b))
  -- lines 150-190
  push s elements := do
    let (backPop, b) ← B.push s.2 (elements.map wrap)
    let (front, _, f) ← F.takeMultiple s.1 (clonedKeys backPop)
    return ((backPop.filter fun e => !e.2.cloned).map unwrap ++ front.map unwrap, (f, b))
  -- lines 208-227
  flush s := do
    let (front, f) ← F.flush s.1
    let front := front.filterMap fun e =>
      if e.2.updated then some (e.1, InclCell.new e.2.value) else none
    let (_, _, b) ← B.takeMultiple s.2 (front.map Prod.fst)
    let (r, b) ← B.push b front
    if r.length = 0 then
      let (out, b) ← B.flush b
      return (out.map unwrap, (f, b))
    else Res.panic

/-- src/inclusive/inclusive.rs 159-166. -/
def inclusiveNew (F B : Block K (InclCell V)) (f : F.State) (b : B.State) :
    Res (F.State × B.State) :=
  if F.capacity f ≤ B.capacity b then .ok (f, b) else .panic

/-- src/inclusive/get.rs 13-49: `downgrade`, the copy of an element from the back to the front.
Simplification: the cell obtained from the back is dropped before the back is written to (in the code
it lives until the end of the function: Model/InclusiveHeld has it, and C108_plain says for which containers it is the
same). -/
def inclusiveDowngrade (F B : Block K (InclCell V)) (GB : GetOps B) (s : F.State × B.State) (k : K) :
    Res (Bool × (F.State × B.State)) := do
  let (o, b) ← GB.get s.2 k InclCell.clone
  match o with
  | none => return (false, (s.1, b))
  | some c => do
    let (popped, f) ← F.push s.1 [(k, c.clone)]
    let popped := popped.filter fun e => e.2.updated
    if popped = [] then return (true, (f, b))
    let (_, _, b) ← B.takeMultiple b (popped.map Prod.fst)
    let (out, b) ← B.push b popped
    if out = [] then return (true, (f, b))
    else Res.panic

/-- src/inclusive/get.rs 90-101 and 120-131, for a front operation `op`. -/
def inclusiveAccess (F B : Block K (InclCell V)) (GB : GetOps B)
    (op : F.State → K → (InclCell V → InclCell V) → Res (Option (InclCell V) × F.State))
    (s : F.State × B.State) (k : K) (f : InclCell V → InclCell V) :
    Res (Option V × (F.State × B.State)) := do
  let (b, fr) ← F.contains s.1 k
  let (b, s) ← if b then pure (true, (fr, s.2)) else inclusiveDowngrade F B GB (fr, s.2) k
  if b then
    let (o, fr) ← op s.1 k f
    return (o.map InclCell.value, (fr, s.2))
  else return (none, s)

/-- src/inclusive/get.rs 81-132. -/
def inclusiveGet {F B : Block K (InclCell V)} (GF : GetOps F) (GB : GetOps B) :
    GetOps (inclusive F B) where
  get s k f := inclusiveAccess F B GB GF.get s k (InclCell.read f)
  getMut s k f := inclusiveAccess F B GB GF.getMut s k (InclCell.write f)

end Byoc
