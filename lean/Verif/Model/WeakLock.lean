import Verif.Model.Lock

/-!
# `RWLock` on weak memory (src/utils/lock.rs)

The same code as Model/Lock, with the memory orderings of the source.  The word of the lock is its *modification
order*: the list of the values it had, oldest first.  A read may return an old value, as long as the thread does
not know a more recent one (coherence); a read-modify-write operation that succeeds acts on the last value.  What
a thread reads orders it after other threads only if the orderings say so (`hb` below).

Threads also access the data the lock protects: `dataRead` while they hold the lock, `dataWrite` while they hold
it exclusively.

Simplification: operations ordered `SeqCst` are `AcqRel` here, that is weaker: the total order of sequentially
consistent operations is not used.
-/

namespace Byoc.WeakLock

open Lock

/-- `std::sync::atomic::Ordering`. -/
inductive Order where
  | relaxed
  | acquire
  | release
  | acqRel
  | seqCst
deriving DecidableEq, Repr

/-- The operation synchronizes with what it reads. -/
def Order.acquires : Order → Bool
  | .acquire | .acqRel | .seqCst => true
  | _ => false

/-- What it writes can be synchronized with. -/
def Order.releases : Order → Bool
  | .release | .acqRel | .seqCst => true
  | _ => false

/-- What an action does to memory. -/
inductive Mem where
  /-- nothing -/
  | none
  /-- reads value number `j` of the word -/
  | load (j : Nat) (o : Order)
  /-- reads value number `j` of the word, the last one, and appends value number `j + 1` -/
  | rmw (j : Nat) (o : Order)
  /-- reads the data protected by the lock -/
  | dataRead
  /-- writes it -/
  | dataWrite
deriving DecidableEq, Repr

/-- A thread, and the number of the most recent value of the word it knows. -/
structure Th extends Lock.Th where
  coh : Nat
deriving DecidableEq, Repr

/-- What a thread does next. -/
inductive Act where
  /-- call `try_lock`, `try_lock_mut`, `lock`, `lock_mut` -/
  | acquire (m : Mode) (wait : Bool)
  /-- call `unlock`; only threads holding the lock do -/
  | release
  /-- drop a clone of the lock while panicking -/
  | panicDrop
  /-- read the protected data; only threads holding the lock do -/
  | dataRead
  /-- write the protected data; only threads holding the lock exclusively do -/
  | dataWrite
  /-- next atomic step of the current call.  A `compare_exchange_weak` is let fail for no reason if `fail`; a load
  or a failing `compare_exchange_weak` reads value number `j`. -/
  | run (fail : Bool) (j : Nat)
deriving DecidableEq, Repr

/-- `compare_exchange_weak(old, new, ok, err)` on a word with values `hist`, by a thread knowing value `coh`:
the value read, whether it succeeded, the values and the knowledge afterwards, and what it did.  `none`: it cannot
read value number `j`. -/
def cas (hist : List Nat) (coh old new : Nat) (ok err : Order) (fail : Bool) (j : Nat) :
    Option (Nat × Bool × List Nat × Nat × Mem) :=
  if hist.getLast? = some old ∧ fail = false then
    some (old, true, hist ++ [new], hist.length, .rmw (hist.length - 1) ok)
  else if coh ≤ j then
    (hist[j]?).map fun v => (v, false, hist, j, .load j err)
  else none

/-- One step of one thread. -/
def stepTh (hist : List Nat) (t : Th) : Act → Option (List Nat × Th × Mem)
  | .acquire m wait =>
    if t.pc = .idle then some (hist, { t with pc := .load m wait }, .none) else none
  | .release =>
    if t.pc = .idle then
      if t.writer then some (hist, { t with writer := false, pc := .unlock .excl }, .none)
      else if 0 < t.readers then
        some (hist, { t with readers := t.readers - 1, pc := .unlock .shared }, .none)
      else none
    else none
  | .panicDrop =>
    -- lock.rs 73-79: `fetch_or`
    if t.pc = .idle then
      (hist.getLast?).map fun w =>
        (hist ++ [w ||| POISONED], { t with coh := hist.length }, .rmw (hist.length - 1) .seqCst)
    else none
  | .dataRead =>
    if t.pc = .idle ∧ (t.writer = true ∨ 0 < t.readers) then some (hist, t, .dataRead) else none
  | .dataWrite =>
    if t.pc = .idle ∧ t.writer = true then some (hist, t, .dataWrite) else none
  | .run fail j =>
    match t.pc with
    | .idle => none
    | .load m wait =>
      -- lock.rs 107-111 and 157-161
      if t.coh ≤ j then
        (hist[j]?).map fun w =>
          (hist, { t with
            coh := j
            pc := if w &&& POISONED ≠ 0 then .idle
              else if w &&& EXCLUSIVE ≠ 0 then (if wait then .load m wait else .idle)
              else .cas m wait w }, .load j .seqCst)
      else none
    | .cas m wait count =>
      -- lock.rs 113-121 and 163-171
      let r := match m with
        | .shared => cas hist t.coh count (count + 1) .seqCst .relaxed fail j
        | .excl => cas hist t.coh 0 EXCLUSIVE .seqCst .relaxed fail j
      r.map fun (_, ok, hist, coh, e) =>
        if ok then
          match m with
          | .shared => (hist, { t with pc := .idle, readers := t.readers + 1, coh := coh }, e)
          | .excl => (hist, { t with pc := .idle, writer := true, coh := coh }, e)
        else (hist, { t with pc := if wait then .load m wait else .idle, coh := coh }, e)
    | .unlock m =>
      -- lock.rs 286-294
      (cas hist t.coh EXCLUSIVE 0 .seqCst .seqCst fail j).map fun (v, _, hist, coh, e) =>
        (hist, { t with pc := .unlockLoop m v, coh := coh }, e)
    | .unlockLoop m count =>
      -- lock.rs 296-309
      if count = 0 ∨ count = EXCLUSIVE then some (hist, { t with pc := .idle }, .none)
      else
        (cas hist t.coh count (count - 1) .seqCst .relaxed fail j).map fun (v, ok, hist, coh, e) =>
          (hist, { t with pc := if ok then .idle else .unlockLoop m v, coh := coh }, e)

/-- The values of the word, oldest first, and the threads. -/
structure State where
  hist : List Nat
  threads : List Th
deriving DecidableEq, Repr

/-- lock.rs 91-95: a new lock, and `n` threads that hold nothing. -/
def init (n : Nat) : State := ⟨[0], List.replicate n ⟨.new, 0⟩⟩

/-- Thread `i` takes action `a` in state `s`. -/
def step (s : State) (i : Nat) (a : Act) : Option (State × Mem) :=
  match s.threads[i]? with
  | none => none
  | some t => (stepTh s.hist t a).map fun r => (⟨r.1, s.threads.set i r.2.1⟩, r.2.2)

/-- Number of shared accesses held or being given back. -/
def State.sharedCount (s : State) : Nat := (s.threads.map fun t => t.toTh.sharedCount).sum

/-- Runs of any length from `s`; the trace says which thread did what to memory, in the order of the steps.  The
counter has 62 bits: fewer than `2 ^ 62` shared accesses at any time. -/
inductive Run (s : State) : List (Nat × Mem) → State → Prop where
  | nil : Run s [] s
  | snoc {l s' s'' i a e} : Run s l s' → step s' i a = some (s'', e) → s''.sharedCount < 2 ^ 62 →
      Run s (l ++ [(i, e)]) s''

end Byoc.WeakLock
