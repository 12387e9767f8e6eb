import Verif.Model.Sequential
import Verif.Model.Get

/-!
# Model of an `Associative` shared by several threads

src/associative/concurrent.rs 9-20: the clones share the sets, which are `Concurrent` containers.  There
is no lock around the sets: a call is a sequence of calls on the sets, and those of several threads
interleave in any order.

Simplification: a call on a set is one step (see C35 for `Sequential`).
-/

namespace Byoc.Assoc

open Byoc.Seq (Container SCall SObs)

variable {K V : Type}

/-- What a call has left to do: return, panic, or call set `j` and go on with its result. -/
inductive Prog (K V : Type) where
  | ret (r : SObs K V)
  | panic
  | step (j : Nat) (c : SCall K V) (next : SObs K V → Prog K V)

/-- src/associative/building_block.rs 21 and 55: sum over the sets. -/
def sumProg (c : SCall K V) : List Nat → Nat → Prog K V
  | [], acc => .ret (.num acc)
  | j :: js, acc => .step j c fun
    | .num x => sumProg c js (acc + x)
    | _ => .panic

/-- src/associative/building_block.rs 26-33: flush every set. -/
def flushProg : List Nat → List (K × V) → Prog K V
  | [], out => .ret (.obs (.many out))
  | j :: js, out => .step j (.op .flush) fun
    | .obs (.many o) => flushProg js (out ++ o)
    | _ => .panic

/-- src/associative/building_block.rs 89-100. -/
def takeProg : Nat → List (List K) → List (K × V) → List K → Prog K V
  | _, [], out, ks => .ret (.obs (.keyed out ks))
  | j, g :: gs, out, ks =>
    if g = [] then takeProg (j + 1) gs out ks
    else .step j (.op (.takeMultiple g)) fun
      | .obs (.keyed o k) => takeProg (j + 1) gs (out ++ o) (ks ++ k)
      | _ => .panic

/-- src/associative/building_block.rs 250-253. -/
def pushProg : Nat → List (List (K × V)) → List (K × V) → Prog K V
  | _, [], out => .ret (.obs (.many out))
  | j, g :: gs, out => .step j (.op (.push g)) fun
    | .obs (.many o) => pushProg (j + 1) gs (out ++ o)
    | _ => .panic

/-- src/associative/building_block.rs 217-222; the sizes are those read at the beginning. -/
def popProg (target : Nat) : List (Nat × Nat) → List (K × V) → Prog K V
  | [], out => .ret (.obs (.many out))
  | (bucketSize, bucketIndex) :: rest, out =>
    match Res.sub bucketSize target with
    | .panic => .panic
    | .ok n => .step bucketIndex (.op (.pop n)) fun
      | .obs (.many o) => popProg target rest (out ++ o)
      | _ => .panic

/-- src/associative/building_block.rs 139-225, the sizes of the sets being known. -/
def popWith (n : Nat) (sizes : List Nat) : Prog K V :=
  let poppedSize := sizes.sum
  if n = 0 ∨ poppedSize = 0 then .ret (.obs (.many []))
  else if n ≥ poppedSize then flushProg (List.range sizes.length) []
  else
    match Associative.targetLoop n ((List.range sizes.length).zip sizes) poppedSize with
    | .panic => .panic
    | .ok (target, buckets) => popProg target buckets []

/-- src/associative/building_block.rs 129-134: read the sizes of the sets, then go on. -/
def sizesProg (next : List Nat → Prog K V) : List Nat → List Nat → Prog K V
  | [], sizes => next sizes
  | j :: js, sizes => .step j .size fun
    | .num x => sizesProg next js (sizes ++ [x])
    | _ => .panic

/-- A call on the set of a key (src/associative/building_block.rs 40-43, 63-66, get.rs 13-16, 27-30). -/
def keyProg (hash : K → Nat) (n : Nat) (k : K) (c : SCall K V) : Prog K V :=
  match Associative.set hash n k with
  | .panic => .panic
  | .ok j => .step j c .ret

/-- The calls on the sets that a call on an `Associative` of `n` sets makes. -/
def prog (hash : K → Nat) (n : Nat) : SCall K V → Prog K V
  | .capacity => sumProg .capacity (List.range n) 0
  | .size => sumProg .size (List.range n) 0
  | .op (.contains k) => keyProg hash n k (.op (.contains k))
  | .op (.take k) => keyProg hash n k (.op (.take k))
  | .get k => keyProg hash n k (.get k)
  | .getMut k => keyProg hash n k (.getMut k)
  -- lines 75-103
  | .op (.takeMultiple ks) =>
    match Associative.distribute hash id n ks (List.replicate n []) with
    | .panic => .panic
    | .ok g => takeProg 0 g [] []
  -- lines 123-225
  | .op (.pop m) => sizesProg (popWith m) (List.range n) []
  -- lines 238-255
  | .op (.push l) =>
    match Associative.distribute hash Prod.fst n l (List.replicate n []) with
    | .panic => .panic
    | .ok g => pushProg 0 g []
  | .op .flush => flushProg (List.range n) []

/-- Run a program with nobody else using the sets. -/
def Prog.alone (C : Container K V) : Prog K V → List C.block.State → Res (SObs K V × List C.block.State)
  | .ret r, s => .ok (r, s)
  | .panic, _ => .panic
  | .step j c next, s => do
    let x ← Res.unwrap s[j]?
    let (r, x') ← C.exec c x
    (next r).alone C (s.set j x')

/-- A call on a set: which one, the call, its result. -/
structure Part (K V : Type) where
  set : Nat
  call : SCall K V
  res : SObs K V

/-- Where a thread is; `done` is what the call in progress did so far. -/
inductive Pc (K V : Type) where
  | idle
  | run (c : SCall K V) (done : List (Part K V)) (p : Prog K V)
  | dead (c : SCall K V) (done : List (Part K V))

/-- The sets, and the threads with a clone each. -/
structure AState (K V S : Type) where
  sets : List S
  threads : List (Pc K V)

def AState.new {S : Type} (s : List S) (n : Nat) : AState K V S := ⟨s, List.replicate n .idle⟩

inductive AEv (K V : Type) where
  | called (i : Nat) (c : SCall K V)
  /-- a call on a set, as part of a call of thread `i` -/
  | part (i : Nat) (x : Part K V)
  /-- the call returned `r`, having made the calls `done` on the sets -/
  | returned (i : Nat) (c : SCall K V) (done : List (Part K V)) (r : SObs K V)
  | panicked (i : Nat) (c : SCall K V) (done : List (Part K V))

/-- What a thread does: call a method, or do the next step of its call. -/
inductive AAct (K V : Type) where
  | call (c : SCall K V)
  | go

variable {S : Type}

/-- One step of thread `i`. -/
def astep (hash : K → Nat) (C : Container K V) (s : AState K V C.block.State) (i : Nat) (a : AAct K V) :
    Option (AState K V C.block.State × AEv K V) :=
  match s.threads[i]?, a with
  | some .idle, .call c =>
    some (⟨s.sets, s.threads.set i (.run c [] (prog hash s.sets.length c))⟩, .called i c)
  | some (.run c done (.ret r)), .go => some (⟨s.sets, s.threads.set i .idle⟩, .returned i c done r)
  | some (.run c done .panic), .go =>
    some (⟨s.sets, s.threads.set i (.dead c done)⟩, .panicked i c done)
  | some (.run c done (.step j d next)), .go =>
    match (do let x ← Res.unwrap s.sets[j]?; C.exec d x) with
    | .panic => some (⟨s.sets, s.threads.set i (.dead c done)⟩, .panicked i c done)
    | .ok (r, x') =>
      some (⟨s.sets.set j x', s.threads.set i (.run c (done ++ [⟨j, d, r⟩]) (next r))⟩,
        .part i ⟨j, d, r⟩)
  | _, _ => none

/-- Runs of any length from state `s₀`. -/
inductive ARun (hash : K → Nat) (C : Container K V) (s₀ : AState K V C.block.State) :
    List (AEv K V) → AState K V C.block.State → Prop where
  | nil : ARun hash C s₀ [] s₀
  | snoc {l s s' i a e} : ARun hash C s₀ l s → astep hash C s i a = some (s', e) →
      ARun hash C s₀ (l ++ [e]) s'

end Byoc.Assoc
