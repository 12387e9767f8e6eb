import Verif.Model.Lock
import Verif.Spec

/-!
# Model of `Sequential` used by several threads

src/sequential/building_block.rs, src/sequential/get.rs, src/utils/shared_ptr.rs.

Each thread owns a clone (`Concurrent::clone`, src/sequential/concurrent.rs 8-14).  A call is a
sequence of steps: pass the outer `RWLock`, try to take the guard of the inner
`std::sync::RwLock` (src/utils/shared_ptr.rs 76-121: failure panics), run the container's method,
release the outer lock if it is still held, and only then drop the inner guard (it is a local variable
of the method, or a temporary of the `match`).  Steps of different threads interleave in any order.  The
container's method is *not* atomic: its argument is the container as it was when the guard was taken,
and what it computed is written back when it returns.

Simplifications: the operations of the two locks are atomic (for `RWLock` see Model/Lock.lean and C31);
the container has no interior mutability, so that a `&self` method changes nothing.
-/

namespace Byoc.Seq

open Lock (Mode)

variable {K V : Type}

/-- A method call. -/
inductive SCall (K V : Type) where
  | capacity
  | size
  | op (o : Op K V)
  | get (k : K)
  | getMut (k : K)

/-- A result. -/
inductive SObs (K V : Type) where
  | num (n : Nat)
  | obs (o : Obs K V)
  | cell (v : Option V)

/-- A container with its `get` and `get_mut`: the value the cell shows and the container afterwards
(`get` may move elements). -/
structure Container (K V : Type) : Type 1 where
  block : Block K V
  get : block.State → K → Res (Option V × block.State)
  getMut : block.State → K → Res (Option V × block.State)

/-- A block with its accesses (src/sequential/get.rs 65-79 and 87-101 call the container's own).  The
value is not written while the call runs. -/
def Container.ofGet (B : Block K V) (G : GetOps B) : Container K V :=
  ⟨B, fun s k => G.get s k id, fun s k => G.getMut s k id⟩

/-- The container's method. -/
def Container.exec (C : Container K V) : SCall K V → C.block.State → Res (SObs K V × C.block.State)
  | .capacity, s => .ok (.num (C.block.capacity s), s)
  | .size, s => .ok (.num (C.block.size s), s)
  | .op o, s => do let (r, s') ← C.block.observe s o; pure (.obs r, s')
  | .get k, s => do let (r, s') ← C.get s k; pure (.cell r, s')
  | .getMut k, s => do let (r, s') ← C.getMut s k; pure (.cell r, s')

/-- How the method takes the outer lock: `lock_for` (building_block.rs 9, 23, 29, 41), `lock` (15;
get.rs 66) or `lock_mut_for` (35, 47), `lock_mut` (53; get.rs 88). -/
def SCall.mode : SCall K V → Mode
  | .capacity => .shared
  | .size => .shared
  | .op (.contains _) => .shared
  | .op (.take _) => .excl
  | .op (.takeMultiple _) => .shared
  | .op (.pop _) => .excl
  | .op (.push _) => .excl
  | .op .flush => .shared
  | .get _ => .shared
  | .getMut _ => .excl

/-- Whether the outer lock is still held when the container's method runs.  `let _ =
self.lock.lock_for(()).unwrap();` drops the guard at the end of the statement. -/
def SCall.keeps : SCall K V → Bool
  | .op (.push _) => true
  | .op .flush => true
  | .get _ => true
  | .getMut _ => true
  | _ => false

/-- Which guard of the inner lock is taken: `as_mut` (write) or `as_ref` (read). -/
def SCall.write : SCall K V → Bool
  | .capacity => false
  | .size => false
  | .op (.contains _) => false
  | _ => true

/-- Where a thread is. -/
inductive Pc (K V S : Type) where
  | idle
  /-- about to take the outer lock -/
  | start (c : SCall K V)
  /-- about to take the inner guard -/
  | locked (c : SCall K V)
  /-- in the container's method, called on `snap` -/
  | inside (c : SCall K V) (snap : S)
  /-- the container's method returned `r` -/
  | leaving (c : SCall K V) (r : SObs K V)
  /-- the outer lock is released (building_block.rs 18, 57; get.rs 69, 91), the inner guard is not
  dropped yet -/
  | closing (c : SCall K V) (r : SObs K V)
  /-- holds a cell obtained with `get` (`shared`) or `get_mut` (`excl`) -/
  | cell (m : Mode)
  /-- panicked; `h` is how it still holds the outer lock -/
  | dead (h : Option Mode)

/-- The outer lock as its users see it, the inner `std::sync::RwLock`, the container, the threads. -/
structure SState (K V S : Type) where
  oReaders : Nat
  oWriter : Bool
  oPoison : Bool
  iReaders : Nat
  iWriter : Bool
  iPoison : Bool
  cont : S
  threads : List (Pc K V S)

/-- sequential.rs 58-67: a new `Sequential` over `s` and `n` threads with a clone each. -/
def SState.new {S : Type} (s : S) (n : Nat) : SState K V S :=
  ⟨0, false, false, 0, false, false, s, List.replicate n .idle⟩

inductive SEv (K V : Type) where
  | called (i : Nat) (c : SCall K V)
  /-- passed a lock -/
  | silent (i : Nat)
  /-- the container's method completed with result `r` -/
  | executed (i : Nat) (c : SCall K V) (r : SObs K V)
  | returned (i : Nat) (c : SCall K V) (r : SObs K V)
  /-- returned without calling the container, because the outer lock is poisoned -/
  | skipped (i : Nat) (c : SCall K V) (r : SObs K V)
  | panicked (i : Nat) (c : SCall K V)
  /-- a cell is dropped -/
  | dropped (i : Nat)

/-- What a call on a poisoned `Sequential` returns, if it does not panic: building_block.rs 60 (`push`
drops the elements), get.rs 77 and 99. -/
def SCall.onPoison : SCall K V → Option (SObs K V)
  | .op (.push _) => some (.obs (.many []))
  | .get _ => some (.cell none)
  | .getMut _ => some (.cell none)
  | _ => none

/-- How a thread holds the outer lock after passing it in call `c`. -/
def SCall.holding (c : SCall K V) : Option Mode := if c.keeps then some c.mode else none

variable {S : Type}

/-- Take the outer lock (`h = none`: and release it at once). -/
def SState.acquire (s : SState K V S) : Option Mode → SState K V S
  | none => s
  | some .shared => { s with oReaders := s.oReaders + 1 }
  | some .excl => { s with oWriter := true }

/-- Release the outer lock. -/
def SState.release (s : SState K V S) : Option Mode → SState K V S
  | none => s
  | some .shared => { s with oReaders := s.oReaders - 1 }
  | some .excl => { s with oWriter := false }

/-- Drop the guard of the inner lock. -/
def SState.dropGuard (s : SState K V S) (write : Bool) : SState K V S :=
  if write then { s with iWriter := false } else { s with iReaders := s.iReaders - 1 }

def SState.setPc (s : SState K V S) (i : Nat) (p : Pc K V S) : SState K V S :=
  { s with threads := s.threads.set i p }

/-- What a thread does. -/
inductive SAct (K V : Type) where
  | call (c : SCall K V)
  /-- next step of the call -/
  | go
  /-- drop the cell held -/
  | dropCell
  /-- a panicking thread drops its clone of the `Sequential`, and with it of the lock (lock.rs 73-79) -/
  | unwind

/-- One step of thread `i`. -/
def sstep (C : Container K V) (s : SState K V C.block.State) (i : Nat) (a : SAct K V) :
    Option (SState K V C.block.State × SEv K V) :=
  match s.threads[i]?, a with
  | some .idle, .call c => some (s.setPc i (.start c), .called i c)
  | some (.start c), .go =>
    if s.oPoison then
      match c.onPoison with
      | some r => some (s.setPc i .idle, .skipped i c r)
      | none => some (s.setPc i (.dead none), .panicked i c)
    else
      -- spins until the lock is available
      match c.mode with
      | .shared =>
        if s.oWriter then none else some ((s.acquire c.holding).setPc i (.locked c), .silent i)
      | .excl =>
        if s.oWriter ∨ s.oReaders ≠ 0 then none
        else some ((s.acquire c.holding).setPc i (.locked c), .silent i)
  | some (.locked c), .go =>
    -- shared_ptr.rs 76-121
    if s.iPoison then some (s.setPc i (.dead c.holding), .panicked i c)
    else if c.write then
      if s.iWriter ∨ s.iReaders ≠ 0 then some (s.setPc i (.dead c.holding), .panicked i c)
      else some ({ s with iWriter := true }.setPc i (.inside c s.cont), .silent i)
    else
      if s.iWriter then some (s.setPc i (.dead c.holding), .panicked i c)
      else some ({ s with iReaders := s.iReaders + 1 }.setPc i (.inside c s.cont), .silent i)
  | some (.inside c snap), .go =>
    match C.exec c snap with
    | .panic =>
      -- a write guard dropped by a panicking thread poisons the inner lock
      some ({ s.dropGuard c.write with iPoison := s.iPoison || c.write }.setPc i (.dead c.holding),
        .panicked i c)
    | .ok (r, t) =>
      some ({ s with cont := if c.write then t else s.cont }.setPc i (.leaving c r), .executed i c r)
  | some (.leaving c r), .go =>
    match c, r with
    -- get.rs 73-76, 94-97: the cell keeps the outer lock
    | .get _, .cell (some _) => some ((s.dropGuard c.write).setPc i (.cell .shared), .returned i c r)
    | .getMut _, .cell (some _) => some ((s.dropGuard c.write).setPc i (.cell .excl), .returned i c r)
    | _, _ => some ((s.release c.holding).setPc i (.closing c r), .silent i)
  | some (.closing c r), .go => some ((s.dropGuard c.write).setPc i .idle, .returned i c r)
  | some (.cell m), .dropCell => some ((s.release (some m)).setPc i .idle, .dropped i)
  | some (.dead h), .unwind => some ({ s with oPoison := true }.setPc i (.dead h), .silent i)
  | _, _ => none

/-- Runs of any length from state `s₀`. -/
inductive SRun (C : Container K V) (s₀ : SState K V C.block.State) :
    List (SEv K V) → SState K V C.block.State → Prop where
  | nil : SRun C s₀ [] s₀
  | snoc {l s s' i a e} : SRun C s₀ l s → sstep C s i a = some (s', e) → SRun C s₀ (l ++ [e]) s'

end Byoc.Seq
