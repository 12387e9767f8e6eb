import Verif.Model.Sequential
import Verif.Model.Get

/-!
# Model of a `Profiler` shared by several threads

src/profiler/concurrent.rs 8-18: the clones share the wrapped container and one `SharedPtr<Stats>`.  A
call is a sequence of steps: the sizes read before (`size_it!`), the container's method, the sizes read
after, and then for each update of a statistic, `SharedPtr::as_mut` (src/utils/shared_ptr.rs 97-103:
`try_write`, panics on failure), the addition, and the release of the guard.

Simplifications: a method of the wrapped container is one step (it is `Concurrent`; see C35 for
`Sequential`); the iterator returned by `flush` holds its elements and is read to its end as part of the
call; elapsed times are left out; counters are unbounded.
-/

namespace Byoc.Prof

open Byoc.Seq (Container SCall SObs)

variable {K V : Type}

/-- The fields of `Stats` (src/profiler/stats.rs 47-58). -/
inductive Field where
  | contains | take | pop | push | flush | flushIter | get | getMut | hit | miss
deriving DecidableEq, Repr

/-- Read a field: src/profiler/stats.rs 38-43. -/
def Field.read (st : Stats) : Field → MethodStats
  | .contains => st.contains
  | .take => st.take
  | .pop => st.pop
  | .push => st.push
  | .flush => st.flush
  | .flushIter => st.flushIter
  | .get => st.get
  | .getMut => st.getMut
  | .hit => st.hit
  | .miss => st.miss

/-- Add to a field: src/profiler/stats.rs 31-35. -/
def Field.add (st : Stats) (count size : Nat) : Field → Stats
  | .contains => { st with contains := st.contains.add count size }
  | .take => { st with take := st.take.add count size }
  | .pop => { st with pop := st.pop.add count size }
  | .push => { st with push := st.push.add count size }
  | .flush => { st with flush := st.flush.add count size }
  | .flushIter => { st with flushIter := st.flushIter.add count size }
  | .get => { st with get := st.get.add count size }
  | .getMut => { st with getMut := st.getMut.add count size }
  | .hit => { st with hit := st.hit.add count size }
  | .miss => { st with miss := st.miss.add count size }

/-- What is left to do once the container's method returned. -/
inductive Todo where
  /-- `stats.as_mut().f.add(count, _, size)` -/
  | add (f : Field) (count size : Nat)
  /-- building_block.rs 152-155: in `stats.as_mut().pop.add(size_before - size_after, ..)` the guard is
  taken first and the subtraction, evaluated under it, underflows -/
  | underflowHeld
  /-- building_block.rs 133: `n - hits` underflows, no guard is held -/
  | underflow
deriving DecidableEq, Repr

/-- building_block.rs 81-87, 104-111; get.rs 27-34, 49-56. -/
def hitOrMiss (found : Bool) : Todo := if found then .add .hit 1 0 else .add .miss 1 0

/-- How many times the size is read before, and after, the container's method: `size_it!`
(building_block.rs 102, 130, 150, 187), and twice in `pop` (148, 151). -/
def reads : SCall K V → Nat
  | .op (.take _) => 1
  | .op (.takeMultiple _) => 1
  | .op (.pop _) => 2
  | .op .flush => 1
  | _ => 0

/-- The updates a call makes, from its result and the sizes read before (`b`) and after (`a`).
building_block.rs 79-87, 103-111, 131-135, 152-155, 170, 188 and 36-46; get.rs 26-34, 48-56. -/
def todo : SCall K V → SObs K V → List Nat → List Nat → List Todo
  | .op (.contains _), .obs (.bool x), _, _ => [.add .contains 1 0, hitOrMiss x]
  | .op (.take _), .obs (.opt o), b, a =>
    [.add .take 1 (sizeDiff (b.headD 0) (a.headD 0)), hitOrMiss o.isSome]
  | .op (.takeMultiple ks), .obs (.keyed out _), b, a =>
    .add .take ks.length (sizeDiff (b.headD 0) (a.headD 0)) ::
      if out.length ≤ ks.length then [.add .hit out.length 0, .add .miss (ks.length - out.length) 0]
      else [.underflow]
  | .op (.pop _), .obs (.many _), b, a =>
    -- `b` is size_before then s0, `a` is s1 then size_after
    if a.getLastD 0 ≤ b.headD 0 then
      [.add .pop (b.headD 0 - a.getLastD 0) (sizeDiff (b.getLastD 0) (a.headD 0))]
    else [.underflowHeld]
  | .op (.push l), .obs (.many _), _, _ => [.add .push l.length 0]
  | .op .flush, .obs (.many out), b, a =>
    .add .flush 1 (sizeDiff (b.headD 0) (a.headD 0)) ::
      List.replicate (out.length + 1) (.add .flushIter 1 0)
  | .get _, .cell o, _, _ => [.add .get 1 0, hitOrMiss o.isSome]
  | .getMut _, .cell o, _, _ => [.add .getMut 1 0, hitOrMiss o.isSome]
  | _, _, _, _ => []

/-- Where a thread is. -/
inductive Pc (K V : Type) where
  | idle
  /-- reading sizes before the container's method -/
  | pre (c : SCall K V) (b : List Nat)
  /-- reading sizes after it -/
  | post (c : SCall K V) (r : SObs K V) (b a : List Nat)
  /-- updates left, no guard held -/
  | todo (c : SCall K V) (r : SObs K V) (ts : List Todo)
  /-- holding the write guard for update `t` -/
  | held (c : SCall K V) (r : SObs K V) (t : Todo) (ts : List Todo)
  /-- holding a read guard (profiler.rs, the methods `*_stats`) -/
  | reading (f : Field)
  /-- panicked; the call whose result is lost with the updates not made, if the container was reached -/
  | dead (lost : Option (SCall K V × SObs K V × List Todo))

/-- The wrapped container, the statistics and their lock, the threads. -/
structure PState (K V S : Type) where
  cont : S
  stats : Stats
  readers : Nat
  writer : Bool
  poison : Bool
  threads : List (Pc K V)

/-- profiler.rs 88-93 and concurrent.rs 12-17: a new profiler over `s`, `n` threads with a clone each. -/
def PState.new {S : Type} (s : S) (n : Nat) : PState K V S :=
  ⟨s, {}, 0, false, false, List.replicate n .idle⟩

inductive PEv (K V : Type) where
  | called (i : Nat) (c : SCall K V)
  | silent (i : Nat)
  /-- the container's method completed with result `r` -/
  | executed (i : Nat) (c : SCall K V) (r : SObs K V)
  | returned (i : Nat) (c : SCall K V) (r : SObs K V)
  /-- a method `*_stats` returned -/
  | stat (i : Nat) (f : Field) (m : MethodStats)
  | panicked (i : Nat)

/-- What a thread does. -/
inductive PAct (K V : Type) where
  | call (c : SCall K V)
  | readStat (f : Field)
  /-- next step -/
  | go

variable {S : Type}

def PState.setPc (s : PState K V S) (i : Nat) (p : Pc K V) : PState K V S :=
  { s with threads := s.threads.set i p }

/-- One step of thread `i`. -/
def pstep (C : Container K V) (s : PState K V C.block.State) (i : Nat) (a : PAct K V) :
    Option (PState K V C.block.State × PEv K V) :=
  match s.threads[i]?, a with
  | some .idle, .call c => some (s.setPc i (.pre c []), .called i c)
  | some .idle, .readStat f =>
    -- shared_ptr.rs 109-115
    if s.poison ∨ s.writer then some (s.setPc i (.dead none), .panicked i)
    else some ({ s with readers := s.readers + 1 }.setPc i (.reading f), .silent i)
  | some (.reading f), .go =>
    some ({ s with readers := s.readers - 1 }.setPc i .idle, .stat i f (f.read s.stats))
  | some (.pre c b), .go =>
    if b.length < reads c then
      some (s.setPc i (.pre c (b ++ [C.block.size s.cont])), .silent i)
    else
      match C.exec c s.cont with
      | .panic => some (s.setPc i (.dead none), .panicked i)
      | .ok (r, t) => some ({ s with cont := t }.setPc i (.post c r b []), .executed i c r)
  | some (.post c r b a), .go =>
    if a.length < reads c then
      some (s.setPc i (.post c r b (a ++ [C.block.size s.cont])), .silent i)
    else some (s.setPc i (.todo c r (Prof.todo c r b a)), .silent i)
  | some (.todo c r []), .go => some (s.setPc i .idle, .returned i c r)
  | some (.todo c r (t :: ts)), .go =>
    if t = .underflow ∨ s.poison ∨ s.writer ∨ s.readers ≠ 0 then
      some (s.setPc i (.dead (some (c, r, t :: ts))), .panicked i)
    else some ({ s with writer := true }.setPc i (.held c r t ts), .silent i)
  | some (.held c r t ts), .go =>
    match t with
    | .add f n sz =>
      some ({ s with stats := f.add s.stats n sz, writer := false }.setPc i (.todo c r ts), .silent i)
    | _ =>
      -- the guard is dropped by a panicking thread
      some ({ s with writer := false, poison := true }.setPc i (.dead (some (c, r, t :: ts))), .panicked i)
  | _, _ => none

/-- Runs of any length from state `s₀`. -/
inductive PRun (C : Container K V) (s₀ : PState K V C.block.State) :
    List (PEv K V) → PState K V C.block.State → Prop where
  | nil : PRun C s₀ [] s₀
  | snoc {l s s' i a e} : PRun C s₀ l s → pstep C s i a = some (s', e) → PRun C s₀ (l ++ [e]) s'

end Byoc.Prof
