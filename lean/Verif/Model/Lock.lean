import Verif.Base

/-!
# Model of `RWLock` (src/utils/lock.rs)

The lock is one shared 64 bit word.  Threads run the bodies of `try_lock`, `try_lock_mut`, `lock`,
`lock_mut` and `unlock` as sequences of *atomic steps*: one step is one access to the word (`load`,
`compare_exchange_weak`, `fetch_or`).  Any number of threads, steps interleaved in any order.

Simplifications: memory orderings are sequentially consistent (the failure orderings `Relaxed` of the
code are only used for values that are compared again by the next `compare_exchange`); the thread that
unlocks is the thread that locked; the sleeps of `lock`/`lock_mut` (never reached: `nanos` stays 1) are
left out.
-/

namespace Byoc.Lock

/-- lock.rs 9-10 -/
def EXCLUSIVE : Nat := 2 ^ 62
/-- lock.rs 12-13 -/
def POISONED : Nat := 2 ^ 63

/-- Shared (`lock`) or exclusive (`lock_mut`) access. -/
inductive Mode where
  | shared
  | excl
deriving DecidableEq, Repr

/-- `AtomicU64::compare_exchange_weak(old, new)` on a word `w`: may fail *spuriously*, that is although
the word is `old`.  Returns whether it succeeded and the new word; the value read is always `w`. -/
def casWeak (w old new : Nat) (spurious : Bool) : Bool × Nat :=
  if w = old ∧ spurious = false then (true, new) else (false, w)

/-- Where a thread is in the code. -/
inductive Pc where
  /-- outside of the lock methods -/
  | idle
  /-- about to load the word: lock.rs 107 (shared), 157 (exclusive).  `wait`: called from the loop of
  `lock` (204) or `lock_mut` (245). -/
  | load (m : Mode) (wait : Bool)
  /-- loaded `count`, about to `compare_exchange_weak`: lock.rs 113 (shared), 163 (exclusive) -/
  | cas (m : Mode) (wait : Bool) (count : Nat)
  /-- in `unlock`, about to try the exclusive case: lock.rs 286.  `m` is what the caller held (not
  known to the code). -/
  | unlock (m : Mode)
  /-- in the loop of `unlock`, with the local variable `count`: lock.rs 296-309 -/
  | unlockLoop (m : Mode) (count : Nat)
deriving DecidableEq, Repr

/-- A thread: position in the code and what it holds (number of shared acquisitions not yet given
back, and whether it holds exclusive access).  Holding starts when a locking call returns `Ok` and
ends when `unlock` is called.  The code does not know what a thread holds. -/
structure Th where
  pc : Pc
  readers : Nat
  writer : Bool
deriving DecidableEq, Repr

def Th.new : Th := ⟨.idle, 0, false⟩

/-- The thread has returned from its locking call and not called `unlock` yet. -/
def Th.holds (t : Th) : Prop := t.writer = true ∨ 0 < t.readers

/-- What a thread does next. -/
inductive Act where
  /-- call `try_lock` (`shared`, `wait = false`), `try_lock_mut`, `lock` (`wait = true`), `lock_mut` -/
  | acquire (m : Mode) (wait : Bool)
  /-- call `unlock`; only threads holding the lock do -/
  | release
  /-- drop a clone of the lock while panicking -/
  | panicDrop
  /-- run the next atomic step of the current call; `spurious`: if it is a `compare_exchange_weak`, it
  fails for no reason -/
  | run (spurious : Bool)
deriving DecidableEq, Repr

/-- What is observed from outside. -/
inductive Ev where
  | silent
  /-- a locking method is called -/
  | called (m : Mode)
  /-- a locking method returns `Ok(())` -/
  | acquired (m : Mode)
  /-- a locking method returns `Err(WouldBlock)` -/
  | wouldBlock
  /-- a locking method returns `Err(Poisoned)` -/
  | poisoned
  /-- `unlock` is called -/
  | releasing
  /-- `unlock` returns -/
  | released
  /-- a clone was dropped while panicking -/
  | poison
deriving DecidableEq, Repr

/-- One atomic step of one thread on the word. -/
def stepTh (w : Nat) (t : Th) : Act → Option (Nat × Th × Ev)
  | .acquire m wait =>
    if t.pc = .idle then some (w, { t with pc := .load m wait }, .called m) else none
  | .release =>
    if t.pc = .idle then
      if t.writer then some (w, { t with writer := false, pc := .unlock .excl }, .releasing)
      else if 0 < t.readers then
        some (w, { t with readers := t.readers - 1, pc := .unlock .shared }, .releasing)
      else none
    else none
  | .panicDrop =>
    -- lock.rs 73-79
    if t.pc = .idle then some (w ||| POISONED, t, .poison) else none
  | .run spurious =>
    match t.pc with
    | .idle => none
    | .load m wait =>
      -- lock.rs 107-111 and 157-161; `Poisoned` leaves the loops 204-208 and 245-249,
      -- `WouldBlock` repeats them
      if w &&& POISONED ≠ 0 then some (w, { t with pc := .idle }, .poisoned)
      else if w &&& EXCLUSIVE ≠ 0 then
        if wait then some (w, { t with pc := .load m wait }, .silent)
        else some (w, { t with pc := .idle }, .wouldBlock)
      else some (w, { t with pc := .cas m wait w }, .silent)
    | .cas m wait count =>
      -- lock.rs 113-121 and 163-171
      let r := match m with
        | .shared => casWeak w count (count + 1) spurious
        | .excl => casWeak w 0 EXCLUSIVE spurious
      if r.1 then
        match m with
        | .shared => some (r.2, { t with pc := .idle, readers := t.readers + 1 }, .acquired .shared)
        | .excl => some (r.2, { t with pc := .idle, writer := true }, .acquired .excl)
      else if wait then some (r.2, { t with pc := .load m wait }, .silent)
      else some (r.2, { t with pc := .idle }, .wouldBlock)
    | .unlock m =>
      -- lock.rs 286-294: the value read is `w` on success and on failure
      some ((casWeak w EXCLUSIVE 0 spurious).2, { t with pc := .unlockLoop m w }, .silent)
    | .unlockLoop m count =>
      -- lock.rs 296-309
      if count = 0 ∨ count = EXCLUSIVE then some (w, { t with pc := .idle }, .released)
      else
        let r := casWeak w count (count - 1) spurious
        if r.1 then some (r.2, { t with pc := .idle }, .released)
        else some (r.2, { t with pc := .unlockLoop m w }, .silent)

/-- The lock and the threads using it. -/
structure State where
  word : Nat
  threads : List Th
deriving DecidableEq, Repr

/-- lock.rs 91-95: a new lock, and `n` threads that hold nothing. -/
def init (n : Nat) : State := ⟨0, List.replicate n Th.new⟩

/-- Thread `i` takes action `a` in state `s`. -/
def step (s : State) (i : Nat) (a : Act) : Option (State × Ev) :=
  match s.threads[i]? with
  | none => none
  | some t => (stepTh s.word t a).map fun r => (⟨r.1, s.threads.set i r.2.1⟩, r.2.2)

/-- Number of shared accesses held or being given back. -/
def Th.sharedCount (t : Th) : Nat :=
  t.readers + match t.pc with
    | .unlock .shared => 1
    | .unlockLoop .shared _ => 1
    | _ => 0

def State.sharedCount (s : State) : Nat := (s.threads.map Th.sharedCount).sum

/-- Runs of any length: `(i, a, e)` says that thread `i` took action `a`, and event `e` was observed.
The counter has 62 bits: fewer than `2 ^ 62` shared accesses at any time. -/
inductive Run : State → List (Nat × Act × Ev) → State → Prop where
  | nil (s) : Run s [] s
  | cons {s s' s'' i a e l} : step s i a = some (s', e) → s'.sharedCount < 2 ^ 62 →
      Run s' l s'' → Run s ((i, a, e) :: l) s''

end Byoc.Lock
