import Verif.Model.StoreUnwind
import Verif.Model.Get

/-!
# `get` and `get_mut` of the building blocks in memory when the user's functions panic

As in Model/Unwind.  An access is `get`/`get_mut`, the use of the cell (`M.useCell`), and its drop.  Cells point to the
value in the container: when the user panics while changing the value, the value stays as it is then.

Simplifications: the clock of a `Decorator` and the statistics of a `Profiler` do not count an access of which the use of
the cell panics (the code has counted it).
-/

namespace Byoc.Unwind

open M

variable {K V : Type}

/-- `get` and `get_mut`: the key, what the user does to the value (for `get`: what reading does), and what it is when
the user panics. -/
structure Using (S K V : Type) where
  get : K → (V → V) → (Nat → V → V) → M S (Option V)
  getMut : K → (V → V) → (Nat → V → V) → M S (Option V)

/-- src/array/get.rs 52-78: `eq`, then the use of the cell, which points to the value. -/
def arrayUse [DecidableEq K] (k : K) (f : V → V) (half : Nat → V → V) : M (Array K V) (Option V) :=
  withState fun a => do
    user
    match findKey a.values k with
    | none => return none
    | some i => match a.values[i]? with
      | none => return none
      | some (k', v) => do
        let v' ← useCell f half v fun x a => .ok { a with values := a.values.set i (k', x) }
        set { a with values := a.values.set i (k', v') }
        return some v

/-- src/array/get.rs. -/
def arrayUsing [DecidableEq K] : Using (Array K V) K V where
  get := arrayUse
  getMut := arrayUse

/-- src/exclusive/exclusive.rs 131-154: the element is in a local variable between the back and the front, and so is what
the front pops. -/
def downgrade {S T : Type} (UF : Unwinding S K V) (UB : Unwinding T K V) (k : K) : M (S × T) Bool := do
  match ← snd (UB.take k) with
  | none => return false
  | some x => do
    let popped ← fst (UF.push [x])
    if popped = [] then return true
    let popped ← snd (UB.push popped)
    if popped = [] then return true
    else fail

/-- src/exclusive/get.rs 12-24 and 34-46, for a front operation `op`. -/
def exclusiveUse {S T : Type} (UF : Unwinding S K V) (UB : Unwinding T K V)
    (op : K → (V → V) → (Nat → V → V) → M S (Option V)) (k : K) (f : V → V) (half : Nat → V → V) :
    M (S × T) (Option V) := do
  if ← fst (UF.contains k) then fst (op k f half)
  else if ← downgrade UF UB k then fst (op k f half)
  else return none

/-- src/exclusive/get.rs. -/
def exclusiveUsing {S T : Type} (UF : Unwinding S K V) (UB : Unwinding T K V) (A : Using S K V) :
    Using (S × T) K V where
  get := exclusiveUse UF UB A.get
  getMut := exclusiveUse UF UB A.getMut

/-- src/batch/get.rs 16-18 and 34-36.  The last argument has the length of the list. -/
def batchUse {S : Type} (op : K → (V → V) → (Nat → V → V) → M S (Option V)) (k : K) (f : V → V)
    (half : Nat → V → V) : List S → M (List S) (Option V)
  | [] => return none
  | _ :: cs => do
    match ← head (op k f half) with
    | some v => return some v
    | none => tail (batchUse op k f half cs)

/-- src/batch/get.rs. -/
def batchUsing {S : Type} (A : Using S K V) : Using (List S) K V where
  get k f half := withState fun s => batchUse A.get k f half s
  getMut k f half := withState fun s => batchUse A.getMut k f half s

/-- src/associative/get.rs 13-16 and 27-30: the hasher, then the access. -/
def associativeUse {S : Type} (hash : K → Nat) (op : K → (V → V) → (Nat → V → V) → M S (Option V)) (k : K)
    (f : V → V) (half : Nat → V → V) : M (List S) (Option V) := withState fun s => do
  user
  let i ← ofRes (Associative.set hash s.length k)
  atIndex i (op k f half)

/-- src/associative/get.rs. -/
def associativeUsing {S : Type} (hash : K → Nat) (A : Using S K V) : Using (List S) K V where
  get := associativeUse hash A.get
  getMut := associativeUse hash A.getMut

/-- A container of one of several types. -/
def anyOfUsing {ι : Type} {S : ι → Type} (A : ∀ i, Using (S i) K V) : Using (Σ i, S i) K V where
  get k f half := sigma fun i => (A i).get k f half
  getMut k f half := sigma fun i => (A i).getMut k f half

/-- src/decorator/get.rs 47-83, for an operation `op` of the container: the use of the cell is through the decorated value. -/
def decoratorUse {D : Decoration V} (A : Access D) {S : Type}
    (op : K → (D.Item → D.Item) → (Nat → D.Item → D.Item) → M S (Option D.Item)) (k : K) (f : V → V)
    (half : Nat → V → V) : M (S × D.Factory) (Option V) := withState fun s => do
  let o ← fst (op k (A.access s.2 f) fun n => A.access s.2 (half n))
  withState fun s' => do
    set (s'.1, if o.isSome then A.tick s.2 else s.2)
    return o.map D.unwrap

/-- src/decorator/get.rs. -/
def decoratorUsing {D : Decoration V} (A : Access D) {S : Type} (U : Using S K D.Item) :
    Using (S × D.Factory) K V where
  get := decoratorUse A U.get
  getMut := decoratorUse A U.getMut

/-- src/profiler/get.rs 24-36 and 46-58, for an operation `op` of the container; `count` is the counter of the method. -/
def profilerUse {S : Type} (count : Stats → Stats) (op : K → (V → V) → (Nat → V → V) → M S (Option V)) (k : K)
    (f : V → V) (half : Nat → V → V) : M (S × Stats) (Option V) := do
  let o ← fst (op k f half)
  withState fun s => do
    set (s.1, Stats.hitOrMiss (count s.2) o.isSome)
    return o

/-- src/profiler/get.rs. -/
def profilerUsing {S : Type} (A : Using S K V) : Using (S × Stats) K V where
  get := profilerUse (fun st => { st with get := st.get.add 1 0 }) A.get
  getMut := profilerUse (fun st => { st with getMut := st.getMut.add 1 0 }) A.getMut

/-- The accesses of a container assembled from building blocks (Model/Stack). -/
def stackUsing [LinearOrder K] (left : (W : Type) → Nat → List (K × W) → List (K × W)) :
    {V : Type} → (t : Stack K V) → Using t.block.State K V
  | _, .array _ _ _ => arrayUsing
  | _, .exclusive f b => exclusiveUsing (stack left f) (stack left b) (stackUsing left f)
  | _, .batch c => batchUsing (stackUsing left c)
  | _, .associative hash c => associativeUsing hash (stackUsing left c)
  | _, .flushStopper c => stackUsing left c
  | _, .sequential c => stackUsing left c
  | _, .dyn _ c => anyOfUsing fun i => stackUsing left (c i)
  | _, .decorator _ A c => decoratorUsing A (stackUsing left c)
  | _, .profiler c => profilerUsing (stackUsing left c)

end Byoc.Unwind
