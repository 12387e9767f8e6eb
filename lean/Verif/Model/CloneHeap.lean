import Verif.Model.Get
import Verif.Model.Sequential

/-!
# Copies (`Clone`) and handles (`Concurrent::clone`) of containers

A container in Rust is a value with pointers to what it shares: a `Sequential` is a pointer to its container (and to a
lock), a `Profiler` has a pointer to its statistics.  `Clone::clone` makes a new container; `Concurrent::clone` makes
another handle on the same one.  A call through a handle runs on what its pointers lead to and writes it back.

Simplifications: calls do not overlap (for calls that do see Model/Sequential, ConcProfiler, ConcDecorator); a clone of a
key, of a value or of a decoration factory is equal to it (fifo.rs 61-67, lru.rs 44-50, lrfu.rs 108-115, default.rs
45-46) and shares nothing with it; memory is not freed (nothing is reached through a handle that was dropped).  Pointers
of different types point to different places.
-/

namespace Byoc.CloneHeap

variable {K : Type}

/-- The containers that can be cloned in one of the two ways, and what a `Sequential` may contain: an `Array`, any other
container. -/
inductive Ty (K : Type) : Type → Type 1 where
  | array {V : Type} (sz : K × V → Nat) (srt srtS : Sorter (K × V)) : Ty K V
  | other {V : Type} (B : Block K V) (G : GetOps B) : Ty K V
  | flushStopper {V : Type} (c : Ty K V) : Ty K V
  | sequential {V : Type} (c : Ty K V) : Ty K V
  | decorator {V : Type} (D : Decoration V) (A : Access D) (c : Ty K D.Item) : Ty K V
  | profiler {V : Type} (c : Ty K V) : Ty K V

variable [LinearOrder K]

/-- The container, when nothing is shared (Model/Combinators). -/
def Ty.block : {V : Type} → Ty K V → Block K V
  | _, .array sz srt srtS => arrayBlock sz srt srtS
  | _, .other B _ => B
  | _, .flushStopper c => Byoc.flushStopper c.block
  | _, .sequential c => Byoc.sequential c.block
  | _, .decorator D _ c => Byoc.decorator D c.block
  | _, .profiler c => Byoc.profiler c.block

/-- Its accesses (Model/Get). -/
def Ty.accesses : {V : Type} → (t : Ty K V) → GetOps t.block
  | _, .array sz srt srtS => arrayGet sz srt srtS
  | _, .other _ G => G
  | _, .flushStopper c => flushStopperGet c.accesses
  | _, .sequential c => sequentialGet c.accesses
  | _, .decorator _ A c => decoratorGet A c.accesses
  | _, .profiler c => profilerGet c.accesses

/-- The Rust value: what is behind pointers is not in it.  A pointer is an index in the memory. -/
def Val : {V : Type} → Ty K V → Type
  | V, .array _ _ _ => Array K V
  | _, .other B _ => B.State
  | _, .flushStopper c => Val c
  -- src/sequential/sequential.rs 38-41: `SharedPtr<C>`
  | _, .sequential _ => Nat
  | _, .decorator D _ c => Val c × D.Factory
  -- src/profiler/profiler.rs 76-79: `SharedPtr<Stats>`
  | _, .profiler c => Val c × Nat

/-- The memory: what the pointers of each type point to. -/
def Heap : {V : Type} → Ty K V → Type
  | _, .array _ _ _ => Unit
  | _, .other _ _ => Unit
  | _, .flushStopper c => Heap c
  | _, .sequential c => List (Val c) × Heap c
  | _, .decorator _ _ c => Heap c
  | _, .profiler c => List Stats × Heap c

/-- A new container in the empty memory: src/sequential/sequential.rs 60-66, src/profiler/profiler.rs 89-94. -/
def new : {V : Type} → (t : Ty K V) → t.block.State → Heap t × Val t
  | _, .array _ _ _, s => ((), s)
  | _, .other _ _, s => ((), s)
  | _, .flushStopper c, s => new c s
  | _, .sequential c, s => let r := new c s; (([r.2], r.1), (0 : Nat))
  | _, .decorator _ _ c, s => let r := new c s.1; (r.1, (r.2, s.2))
  | _, .profiler c, s => let r := new c s.1; (([s.2], r.1), (r.2, 0))

/-- What a pointer points to. -/
def deref {α : Type} (l : List α) (p : Nat) : Option α := l[p]?

/-- Write through a pointer. -/
def assign {α : Type} (l : List α) (p : Nat) (x : α) : List α := l.set p x

/-- What the value and its pointers lead to. -/
def load : {V : Type} → (t : Ty K V) → Heap t → Val t → Option t.block.State
  | _, .array _ _ _, _, v => some v
  | _, .other _ _, _, v => some v
  | _, .flushStopper c, h, v => load c h v
  | _, .sequential c, h, p => do load c h.2 (← deref h.1 p)
  | _, .decorator _ _ c, h, v => do return (← load c h v.1, v.2)
  | _, .profiler c, h, v => do return (← load c h.2 v.1, ← deref h.1 v.2)

/-- Write it back: src/utils/shared_ptr.rs 92-105 for what is behind pointers. -/
def store : {V : Type} → (t : Ty K V) → Heap t → Val t → t.block.State → Heap t × Val t
  | _, .array _ _ _, h, _, s => (h, s)
  | _, .other _ _, h, _, s => (h, s)
  | _, .flushStopper c, h, v, s => store c h v s
  | _, .sequential c, h, p, s =>
    match deref h.1 p with
    | none => (h, p)
    | some x => let r := store c h.2 x s; ((assign h.1 p r.2, r.1), p)
  | _, .decorator _ _ c, h, v, s => let r := store c h v.1 s.1; (r.1, (r.2, s.2))
  | _, .profiler c, h, v, s => let r := store c h.2 v.1 s.1; ((assign h.1 v.2 s.2, r.1), (r.2, v.2))

/-- `Clone::clone`: src/array/array.rs 109-118, src/flush_stopper/flush_stopper.rs 58, src/sequential/sequential.rs 49-56
(a new `SharedPtr` and a new lock), src/decorator/decorator.rs 55-67.  The other containers are not `Clone`. -/
def copy : {V : Type} → (t : Ty K V) → Heap t → Val t → Option (Heap t × Val t)
  | _, .array _ _ _, h, v => some (h, v)
  | _, .other _ _, _, _ => none
  | _, .flushStopper c, h, v => copy c h v
  | _, .sequential c, h, p => do
    let r ← copy c h.2 (← deref h.1 p)
    return ((h.1 ++ [r.2], r.1), h.1.length)
  | _, .decorator _ _ c, h, v => do
    let r ← copy c h v.1
    return (r.1, (r.2, v.2))
  | _, .profiler _, _, _ => none

/-- `Concurrent::clone`: src/sequential/concurrent.rs 8-15 (the same pointer), src/profiler/concurrent.rs 7-17,
src/decorator/concurrent.rs 18-31.  The other containers are not `Concurrent`. -/
def handle : {V : Type} → (t : Ty K V) → Val t → Option (Val t)
  | _, .array _ _ _, _ => none
  | _, .other _ _, _ => none
  | _, .flushStopper _, _ => none
  | _, .sequential _, p => some p
  | _, .decorator _ _ c, v => do return (← handle c v.1, v.2)
  | _, .profiler c, v => do return (← handle c v.1, v.2)

/-- A method call; the cells of `get` and `get_mut` are used once and dropped. -/
inductive Use (K V : Type) where
  | capacity
  | size
  | op (o : Op K V)
  | get (k : K) (touch : V → V)
  | getMut (k : K) (f : V → V)

/-- The call on a container that is not shared. -/
def Ty.use {V : Type} (t : Ty K V) (s : t.block.State) : Use K V → Res (Seq.SObs K V × t.block.State)
  | .capacity => .ok (.num (t.block.capacity s), s)
  | .size => .ok (.num (t.block.size s), s)
  | .op o => do let (r, s') ← t.block.observe s o; pure (.obs r, s')
  | .get k f => do let (r, s') ← t.accesses.get s k f; pure (.cell r, s')
  | .getMut k f => do let (r, s') ← t.accesses.getMut s k f; pure (.cell r, s')

/-- What the users do with the values they have. -/
inductive Event (K V : Type) where
  | use (i : Nat) (u : Use K V)
  /-- `Clone::clone` -/
  | copy (i : Nat)
  /-- `Concurrent::clone` -/
  | handle (i : Nat)

/-- The memory and the values the users have. -/
structure State {V : Type} (t : Ty K V) where
  heap : Heap t
  vals : List (Val t)

/-- One event.  What the users cannot do does nothing. -/
def step {V : Type} (t : Ty K V) (s : State t) : Event K V → Res (Option (Seq.SObs K V) × State t)
  | .use i u =>
    match s.vals[i]? with
    | none => .ok (none, s)
    | some v => match load t s.heap v with
      | none => .ok (none, s)
      | some c => do
        let (r, c') ← t.use c u
        let w := store t s.heap v c'
        pure (some r, ⟨w.1, s.vals.set i w.2⟩)
  | .copy i =>
    match s.vals[i]? with
    | none => .ok (none, s)
    | some v => match copy t s.heap v with
      | none => .ok (none, s)
      | some w => .ok (none, ⟨w.1, s.vals ++ [w.2]⟩)
  | .handle i =>
    match s.vals[i]? with
    | none => .ok (none, s)
    | some v => match handle t v with
      | none => .ok (none, s)
      | some w => .ok (none, ⟨s.heap, s.vals ++ [w]⟩)

/-- A history: the results of its calls. -/
def run {V : Type} (t : Ty K V) (s : State t) : List (Event K V) → Res (List (Option (Seq.SObs K V)) × State t)
  | [] => .ok ([], s)
  | e :: l => do
    let (r, s) ← step t s e
    let (rs, s) ← run t s l
    pure (r :: rs, s)

end Byoc.CloneHeap
