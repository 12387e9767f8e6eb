import Verif.Model.ConcAssoc

/-!
# Model of an `Associative` of `Sequential` containers shared by several threads

src/associative/concurrent.rs 9-20 over src/sequential/concurrent.rs 8-14: every thread has a clone of
each `Sequential`.  Here a call on a set is not atomic: it takes the steps of Model/Sequential.lean, and
those of all threads, on all sets, interleave in any order.

Simplifications: those of Model/Sequential.lean and of Model/ConcAssoc.lean, except the one about sets.
-/

namespace Byoc.AssocSeq

open Byoc.Seq (Container SCall SObs SState SEv SAct sstep)
open Byoc.Assoc (Prog Part AEv prog)

variable {K V : Type}

/-- Where a thread is. -/
inductive Pc (K V : Type) where
  | idle
  /-- in call `c`, between two calls on the sets -/
  | run (c : SCall K V) (done : List (Part K V)) (p : Prog K V)
  /-- in call `c`, in a call `d` on set `j` -/
  | inSet (c : SCall K V) (done : List (Part K V)) (j : Nat) (d : SCall K V) (next : SObs K V → Prog K V)
  /-- holds the cell that call `c` returned, of an element of set `j` -/
  | held (c : SCall K V) (j : Nat)
  | dead (c : SCall K V) (done : List (Part K V))

/-- The sets, each shared by all threads, and the threads with a clone each. -/
structure QState (K V S : Type) where
  sets : List (SState K V S)
  threads : List (Pc K V)

/-- `n` threads sharing new `Sequential` containers (sequential.rs 58-67). -/
def QState.new {S : Type} (s : List S) (n : Nat) : QState K V S :=
  ⟨s.map fun x => .new x n, List.replicate n .idle⟩

inductive QEv (K V : Type) where
  /-- a call, the moment a call on a set takes effect, a return or a panic -/
  | vis (e : AEv K V)
  | silent (i : Nat)
  /-- a call on a set returned without doing anything, because the lock of the set is poisoned -/
  | lost (i : Nat) (x : Part K V)
  | dropped (i : Nat)

variable {S : Type}

/-- Where a thread goes when its call returns: src/sequential/get.rs 73-76, 94-97 (a cell keeps the lock
of its set). -/
def Pc.after (c : SCall K V) (done : List (Part K V)) (r : SObs K V) : Pc K V :=
  match r, done.getLast? with
  | .cell (some _), some x => .held c x.set
  | _, _ => .idle

/-- One step of thread `i`. -/
def qstep (hash : K → Nat) (C : Container K V) (s : QState K V C.block.State) (i : Nat) (a : SAct K V) :
    Option (QState K V C.block.State × QEv K V) :=
  match s.threads[i]?, a with
  | some .idle, .call c =>
    some (⟨s.sets, s.threads.set i (.run c [] (prog hash s.sets.length c))⟩, .vis (.called i c))
  | some (.run c done (.ret r)), .go =>
    some (⟨s.sets, s.threads.set i (.after c done r)⟩, .vis (.returned i c done r))
  | some (.run c done .panic), .go =>
    some (⟨s.sets, s.threads.set i (.dead c done)⟩, .vis (.panicked i c done))
  | some (.run c done (.step j d next)), .go =>
    match s.sets[j]? with
    -- index out of bounds
    | none => some (⟨s.sets, s.threads.set i (.dead c done)⟩, .vis (.panicked i c done))
    | some x =>
      match sstep C x i (.call d) with
      | none => none
      | some (x', _) => some (⟨s.sets.set j x', s.threads.set i (.inSet c done j d next)⟩, .silent i)
  | some (.inSet c done j d next), .go =>
    match s.sets[j]? with
    | none => none
    | some x =>
      match sstep C x i .go with
      | none => none
      | some (x', .executed _ d' r) => some (⟨s.sets.set j x', s.threads⟩, .vis (.part i ⟨j, d', r⟩))
      | some (x', .returned _ d' r) =>
        some (⟨s.sets.set j x', s.threads.set i (.run c (done ++ [⟨j, d', r⟩]) (next r))⟩, .silent i)
      | some (x', .skipped _ d' r) =>
        some (⟨s.sets.set j x', s.threads.set i (.run c (done ++ [⟨j, d', r⟩]) (next r))⟩,
          .lost i ⟨j, d', r⟩)
      | some (x', .panicked _ _) =>
        some (⟨s.sets.set j x', s.threads.set i (.dead c done)⟩, .vis (.panicked i c done))
      | some (x', _) => some (⟨s.sets.set j x', s.threads⟩, .silent i)
  | some (.held _ j), .dropCell =>
    match s.sets[j]? with
    | none => none
    | some x =>
      match sstep C x i .dropCell with
      | none => none
      | some (x', _) => some (⟨s.sets.set j x', s.threads.set i .idle⟩, .dropped i)
  -- a panicking thread drops its clone, and with it its clones of the locks of all the sets
  -- (src/utils/lock.rs 73-79)
  | some (.dead _ _), .unwind => some (⟨s.sets.map fun x => { x with oPoison := true }, s.threads⟩, .silent i)
  | _, _ => none

/-- Runs of any length from state `s₀`. -/
inductive QRun (hash : K → Nat) (C : Container K V) (s₀ : QState K V C.block.State) :
    List (QEv K V) → QState K V C.block.State → Prop where
  | nil : QRun hash C s₀ [] s₀
  | snoc {l s s' i a e} : QRun hash C s₀ l s → qstep hash C s i a = some (s', e) →
      QRun hash C s₀ (l ++ [e]) s'

end Byoc.AssocSeq
