import Verif.Model.Sequential
import Verif.Model.Unwind

/-!
# A `Sequential` when functions of the user panic

src/sequential/building_block.rs, src/sequential/get.rs, src/utils/lock.rs 73-79, src/utils/shared_ptr.rs 76-121.

A `Sequential` is shared by any number of handles (`Concurrent::clone`).  Calls happen one after the other (for calls that
overlap see Model/Sequential); cells may be held while other calls are made.  The user catches panics and goes on.  When
a call panics, the handle may be dropped by the unwinding (the thread that owns it dies) or not (`catch_unwind`).

Simplifications: the outer lock is what its users see of it (C31, C32): how many hold it shared, whether somebody holds
it exclusively, whether it is poisoned.  Values are not written through the cells (C100).  No call is made by a
destructor while its thread unwinds.
-/

namespace Byoc.SeqUnwind

open Lock (Mode)
open Byoc.Unwind Byoc.Seq

variable {K V S : Type}

/-- The container's `get` and `get_mut`, with the places where functions of the user are called. -/
structure Accesses (S K V : Type) where
  get : K → M S (Option V)
  getMut : K → M S (Option V)

/-- src/array/get.rs 54-62, 68-76: `eq` of the keys. -/
def arrayAccesses [DecidableEq K] : Accesses (Array K V) K V where
  get k := M.withState fun a => do M.user; return (a.values.find? fun e => e.1 = k).map Prod.snd
  getMut k := M.withState fun a => do M.user; return (a.values.find? fun e => e.1 = k).map Prod.snd

/-- The container's method, during which functions of the user do what `w` says: its result (`none`: a panic), and the
container afterwards. -/
def inner (cap size : S → Nat) (U : Unwinding S K V) (G : Accesses S K V) (s : S) (w : Fates) :
    SCall K V → Option (SObs K V) × S
  | .capacity => (some (.num (cap s)), s)
  | .size => (some (.num (size s)), s)
  | .op (.contains k) => let r := (U.contains k).run w s; (r.1.map fun b => .obs (.bool b), r.2.2)
  | .op (.take k) => let r := (U.take k).run w s; (r.1.map fun o => .obs (.opt o), r.2.2)
  | .op (.takeMultiple ks) =>
    let r := (U.takeMultiple ks).run w s; (r.1.map fun p => .obs (.keyed p.1 p.2), r.2.2)
  | .op (.pop n) => let r := (U.pop n).run w s; (r.1.map fun l => .obs (.many l), r.2.2)
  | .op (.push l) => let r := (U.push l).run w s; (r.1.map fun l => .obs (.many l), r.2.2)
  | .op .flush => let r := U.flush.run w s; (r.1.map fun l => .obs (.many l), r.2.2)
  | .get k => let r := (G.get k).run w s; (r.1.map .cell, r.2.2)
  | .getMut k => let r := (G.getMut k).run w s; (r.1.map .cell, r.2.2)

/-- The shared state: the outer lock, whether the `std::sync::RwLock` around the container is poisoned, the container,
and the cells that are held. -/
structure State (S : Type) where
  readers : Nat
  writer : Bool
  oPoison : Bool
  iPoison : Bool
  cont : S
  cells : List Mode

/-- src/sequential/sequential.rs 58-67. -/
def State.new (s : S) : State S := ⟨0, false, false, false, s, []⟩

/-- What becomes of a call.  `waits`: it is in the loop of `lock` or `lock_mut` (src/utils/lock.rs 201-219, 242-260),
which it leaves only when the lock has been released or poisoned. -/
inductive Outcome (K V : Type) where
  | returns (r : SObs K V)
  | panics
  | waits

/-- Whether a call has to wait: src/utils/lock.rs 106-123 (shared), 156-173 (exclusive). -/
def State.blocked (s : State S) : Mode → Bool
  | .shared => s.writer
  | .excl => s.writer || decide (s.readers ≠ 0)

/-- The lock is taken and not given back at once: building_block.rs 15, 53; get.rs 66, 88. -/
def State.acquire (s : State S) : Option Mode → State S
  | none => s
  | some .shared => { s with readers := s.readers + 1 }
  | some .excl => { s with writer := true }

/-- `unlock`: building_block.rs 18, 57; get.rs 36, 69, 91. -/
def State.release (s : State S) : Option Mode → State S
  | none => s
  | some .shared => { s with readers := s.readers - 1 }
  | some .excl => { s with writer := false }

/-- A call panics: the unwinding drops the handle or not; `RWLock` has a destructor that poisons (lock.rs 73-79), and
nothing that unlocks. -/
def State.unwound (s : State S) (drops : Bool) : State S := { s with oPoison := s.oPoison || drops }

/-- A call.  `m` is what the container's method does.  -/
def call (m : S → Option (SObs K V) × S) (s : State S) (c : SCall K V) (drops : Bool) : Outcome K V × State S :=
  if s.oPoison then
    -- building_block.rs 60, get.rs 77, 99; `unwrap` panics
    match c.onPoison with
    | some r => (.returns r, s)
    | none => (.panics, s.unwound drops)
  else if s.blocked c.mode then (.waits, s)
  else
    let s := s.acquire c.holding
    -- shared_ptr.rs 99-105, 110-116
    if s.iPoison then (.panics, s.unwound drops)
    else match m s.cont with
      -- the guard of the inner lock is dropped by the unwinding: a write guard poisons
      | (none, t) => (.panics, { s with cont := t, iPoison := c.write }.unwound drops)
      | (some r, t) =>
        let s := { s with cont := t }
        match r with
        -- get.rs 72-75, 94-97: the cell keeps the lock
        | .cell (some _) => (.returns r, { s with cells := c.mode :: s.cells })
        | _ => (.returns r, s.release c.holding)

/-- What the users do. -/
inductive Event (K V : Type) where
  /-- A call on some handle, what functions of the user do during it, and whether the handle is dropped by the unwinding
  if it panics. -/
  | call (c : SCall K V) (w : Fates) (drops : Bool)
  /-- A cell is dropped (get.rs 34-38: `unlock`; then the `RWLock` in it is dropped), by a thread that unwinds or not. -/
  | drop (m : Mode) (panicking : Bool)

section

variable (cap size : S → Nat) (U : Unwinding S K V) (G : Accesses S K V)

/-- One event; the result is that of a call. -/
def step (s : State S) : Event K V → Option (Outcome K V) × State S
  | .call c w drops => let r := call (fun t => inner cap size U G t w c) s c drops; (some r.1, r.2)
  | .drop m panicking =>
    if m ∈ s.cells then (none, ({ s with cells := s.cells.erase m }.release (some m)).unwound panicking)
    else (none, s)

/-- A history. -/
def steps (s : State S) : List (Event K V) → List (Option (Outcome K V)) × State S
  | [] => ([], s)
  | e :: l =>
    let r := step cap size U G s e
    let rs := steps r.2 l
    (r.1 :: rs.1, rs.2)

end

end Byoc.SeqUnwind
