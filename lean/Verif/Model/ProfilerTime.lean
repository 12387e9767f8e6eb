import Verif.Base

/-!
# Model of the statistics of a `Profiler`, with elapsed times and 64 bit counters

src/profiler/stats.rs, src/profiler/building_block.rs, src/profiler/get.rs, src/profiler/profiler.rs.  Here the calls of
the wrapped container are given: which method, whether the key was found, the sizes around the call and how many
nanoseconds it took.  One thread.
-/

namespace Byoc.ProfTime

/-- Values of a `u64`. -/
def word : Nat := 18446744073709551616

/-- src/profiler/stats.rs 4-11. -/
structure MethodStats where
  count : Nat := 0
  elapsed : Nat := 0
  size : Nat := 0
deriving DecidableEq

/-- src/profiler/stats.rs 31-35: `as u64` cuts, `fetch_add` wraps around. -/
def MethodStats.add (m : MethodStats) (count elapsed size : Nat) : MethodStats where
  count := (m.count + count % word) % word
  elapsed := (m.elapsed + elapsed % word) % word
  size := (m.size + size % word) % word

/-- src/profiler/stats.rs 47-58. -/
structure Stats where
  contains : MethodStats := {}
  take : MethodStats := {}
  pop : MethodStats := {}
  push : MethodStats := {}
  flush : MethodStats := {}
  flushIter : MethodStats := {}
  get : MethodStats := {}
  getMut : MethodStats := {}
  hit : MethodStats := {}
  miss : MethodStats := {}
deriving DecidableEq

/-- What the wrapped container did.  `next` is a call on an iterator returned by `flush`, whenever it is made: the
iterator shares the statistics (src/profiler/building_block.rs 31-46). -/
inductive Inner where
  | contains (found : Bool)
  | take (found : Bool) (before after : Nat)
  | takeMultiple (asked found before after : Nat)
  | pop (before after : Nat)
  | push (n : Nat)
  | flush (before after : Nat)
  | next
  | get (found : Bool)
  | getMut (found : Bool)
  | reset

/-- src/profiler/building_block.rs 19-27: absolute difference. -/
def sizeDiff (s0 s1 : Nat) : Nat := if s0 > s1 then s0 - s1 else s1 - s0

/-- src/profiler/building_block.rs 81-87, 104-111 and src/profiler/get.rs 26-33, 47-54. -/
def Stats.hitOrMiss (st : Stats) (found : Bool) (time : Nat) : Stats :=
  if found then { st with hit := st.hit.add 1 time 0 } else { st with miss := st.miss.add 1 time 0 }

/-- One call that took `time` nanoseconds; a subtraction below 0 panics.
src/profiler/building_block.rs 78-88 (`contains`), 100-113 (`take`), 127-138 (`take_multiple`), 147-158 (`pop`), 167-172
(`push`), 185-193 (`flush`), 38-45 (`next`); src/profiler/get.rs 23-35 (`get`), 44-56 (`get_mut`);
src/profiler/profiler.rs 231-233 and src/profiler/stats.rs 78-89 (`reset`). -/
def step (st : Stats) (c : Inner) (time : Nat) : Res Stats :=
  match c with
  | .contains found => .ok (Stats.hitOrMiss { st with contains := st.contains.add 1 time 0 } found time)
  | .take found s0 s1 => .ok (Stats.hitOrMiss { st with take := st.take.add 1 time (sizeDiff s0 s1) } found time)
  | .takeMultiple n hits s0 s1 => do
    let st := { st with take := st.take.add n time (sizeDiff s0 s1) }
    let misses ← Res.sub n hits
    let st := { st with hit := st.hit.add hits time 0 }
    pure { st with miss := st.miss.add misses time 0 }
  | .pop s0 s1 => do
    let d ← Res.sub s0 s1
    pure { st with pop := st.pop.add d time (sizeDiff s0 s1) }
  | .push n => .ok { st with push := st.push.add n time 0 }
  | .flush s0 s1 => .ok { st with flush := st.flush.add 1 time (sizeDiff s0 s1) }
  | .next => .ok { st with flushIter := st.flushIter.add 1 time 0 }
  | .get found => .ok (Stats.hitOrMiss { st with get := st.get.add 1 time 0 } found time)
  | .getMut found => .ok (Stats.hitOrMiss { st with getMut := st.getMut.add 1 time 0 } found time)
  | .reset => .ok {}

/-- A history of timed calls. -/
def run : Stats → List (Inner × Nat) → Res Stats
  | st, [] => .ok st
  | st, (c, t) :: cs => do
    let st ← step st c t
    run st cs

/-- A sum of `u64`: overflow panics (in a debug build). -/
def addWord (a b : Nat) : Res Nat := if a + b < word then .ok (a + b) else .panic

/-- src/profiler/profiler.rs 211-228: `time_stats`. -/
def timeStats (st : Stats) : Res Nat := do
  let t ← addWord st.contains.elapsed st.take.elapsed
  let t ← addWord t st.pop.elapsed
  let t ← addWord t st.push.elapsed
  let t ← addWord t st.flush.elapsed
  let t ← addWord t st.flushIter.elapsed
  let t ← addWord t st.get.elapsed
  addWord t st.getMut.elapsed

end Byoc.ProfTime
