import Verif.Model.Get
import Verif.Props.ArrayProps

/-!
# C37: the counts of a profiler
-/

namespace Byoc.ProfilerProps

variable {K V : Type}

/-- What a user of a profiler does: calls, accesses, `reset()` (src/profiler/profiler.rs 207-209). -/
inductive Action (K V : Type) where
  | op (o : Op K V)
  | get (k : K) (f : V → V)
  | getMut (k : K) (f : V → V)
  | reset

/-- What happened: a call with its result, and the sizes of the container before and after; an access
and whether it found its key; a reset. -/
inductive Event (K V : Type) where
  | op (o : Op K V) (r : Obs K V) (before after : Nat)
  | get (found : Bool)
  | getMut (found : Bool)
  | reset

/-- A history on a container alone, and the record of what happened. -/
def record (C : Block K V) (G : GetOps C) : C.State → List (Action K V) → Res (List (Event K V) × C.State)
  | s, [] => .ok ([], s)
  | s, .op o :: as => do
    let (r, s') ← C.observe s o
    let (es, s'') ← record C G s' as
    pure (.op o r (C.size s) (C.size s') :: es, s'')
  | s, .get k f :: as => do
    let (o, s') ← G.get s k f
    let (es, s'') ← record C G s' as
    pure (.get o.isSome :: es, s'')
  | s, .getMut k f :: as => do
    let (o, s') ← G.getMut s k f
    let (es, s'') ← record C G s' as
    pure (.getMut o.isSome :: es, s'')
  | s, .reset :: as => do
    let (es, s'') ← record C G s as
    pure (.reset :: es, s'')

/-- The same history on the container wrapped in a profiler. -/
def profile (C : Block K V) (G : GetOps C) : (profiler C).State → List (Action K V) →
    Res (List (Obs K V) × (profiler C).State)
  | s, [] => .ok ([], s)
  | s, .op o :: as => do
    let (r, s') ← (profiler C).observe s o
    let (rs, s'') ← profile C G s' as
    pure (r :: rs, s'')
  | s, .get k f :: as => do
    let (_, s') ← (profilerGet G).get s k f
    profile C G s' as
  | s, .getMut k f :: as => do
    let (_, s') ← (profilerGet G).getMut s k f
    profile C G s' as
  | s, .reset :: as => profile C G (s.1, s.2.reset) as

/-! ## What the counters should be -/

/-- Keys looked up. -/
def Event.lookups : Event K V → Nat
  | .op (.contains _) .. => 1
  | .op (.take _) .. => 1
  | .op (.takeMultiple ks) .. => ks.length
  | .get _ => 1
  | .getMut _ => 1
  | _ => 0

/-- Keys found. -/
def Event.found : Event K V → Nat
  | .op (.contains _) (.bool true) .. => 1
  | .op (.take _) (.opt (some _)) .. => 1
  | .op (.takeMultiple _) (.keyed out _) .. => out.length
  | .get true => 1
  | .getMut true => 1
  | _ => 0

def Event.isContains : Event K V → Nat
  | .op (.contains _) .. => 1
  | _ => 0

/-- Keys asked to `take` and `take_multiple`. -/
def Event.taken : Event K V → Nat
  | .op (.take _) .. => 1
  | .op (.takeMultiple ks) .. => ks.length
  | _ => 0

/-- Elements pushed. -/
def Event.pushed : Event K V → Nat
  | .op (.push l) .. => l.length
  | _ => 0

/-- Size freed by `pop`. -/
def Event.popped : Event K V → Nat
  | .op (.pop _) _ before after => before - after
  | _ => 0

def Event.isFlush : Event K V → Nat
  | .op .flush .. => 1
  | _ => 0

/-- Calls of `next` on the iterator returned by `flush`: one per element and one to see the end. -/
def Event.nexts : Event K V → Nat
  | .op .flush (.many out) .. => out.length + 1
  | _ => 0

def Event.isGet : Event K V → Nat
  | .get _ => 1
  | _ => 0

def Event.isGetMut : Event K V → Nat
  | .getMut _ => 1
  | _ => 0

/-- The size `take` and `take_multiple` moved: a difference of sizes. -/
def Event.takenSize : Event K V → Nat
  | .op (.take _) _ before after => (before - after) + (after - before)
  | .op (.takeMultiple _) _ before after => (before - after) + (after - before)
  | _ => 0

def Event.flushedSize : Event K V → Nat
  | .op .flush _ before after => (before - after) + (after - before)
  | _ => 0

/-- Sum over the events since the last reset, `z` being the count at the start. -/
def total (f : Event K V → Nat) : Nat → List (Event K V) → Nat
  | z, [] => z
  | _, .reset :: es => total f 0 es
  | z, e :: es => total f (z + f e) es

/-- The statistics are the counts of the events. -/
def Exact (st0 : Stats) (es : List (Event K V)) (st : Stats) : Prop :=
  st.contains.count = total Event.isContains st0.contains.count es ∧
  st.take.count = total Event.taken st0.take.count es ∧
  st.take.size = total Event.takenSize st0.take.size es ∧
  st.pop.count = total Event.popped st0.pop.count es ∧
  st.pop.size = total Event.popped st0.pop.size es ∧
  st.push.count = total Event.pushed st0.push.count es ∧
  st.flush.count = total Event.isFlush st0.flush.count es ∧
  st.flush.size = total Event.flushedSize st0.flush.size es ∧
  st.flushIter.count = total Event.nexts st0.flushIter.count es ∧
  st.get.count = total Event.isGet st0.get.count es ∧
  st.getMut.count = total Event.isGetMut st0.getMut.count es ∧
  st.hit.count = total Event.found st0.hit.count es ∧
  st.miss.count = total (fun e => e.lookups - e.found) st0.miss.count es

theorem sizeDiff_eq (a b : Nat) : sizeDiff a b = (a - b) + (b - a) := by
  unfold sizeDiff; split <;> omega

theorem sub_ok {a b d : Nat} (h : Res.sub a b = .ok d) : b ≤ a ∧ d = a - b := by
  unfold Res.sub at h
  split at h
  · cases h; constructor <;> first | assumption | rfl
  · cases h

/-- One call of a profiler that returns: the wrapped container did the same, with the same result,
and the statistics counted it. -/
theorem step_exact {C : Block K V} {c c' : C.State} {st st' : Stats} {o : Op K V} {r : Obs K V}
    (h : (profiler C).observe (c, st) o = .ok (r, (c', st'))) :
    C.observe c o = .ok (r, c') ∧ Exact st [.op o r (C.size c) (C.size c')] st' := by
  cases o with
  | contains k =>
    cases h1 : C.contains c k with
    | panic => simp [Block.observe, profiler, h1] at h
    | ok x =>
      obtain ⟨b, c1⟩ := x
      simp [Block.observe, profiler, h1] at h
      obtain ⟨rfl, rfl, rfl⟩ := h
      cases b <;> simp [Block.observe, h1, Exact, Stats.hitOrMiss, MethodStats.add, total,
        Event.isContains, Event.taken, Event.takenSize, Event.popped, Event.pushed, Event.isFlush,
        Event.flushedSize, Event.nexts, Event.isGet, Event.isGetMut, Event.found, Event.lookups]
  | take k =>
    cases h1 : C.take c k with
    | panic => simp [Block.observe, profiler, h1] at h
    | ok x =>
      obtain ⟨b, c1⟩ := x
      simp [Block.observe, profiler, h1] at h
      obtain ⟨rfl, rfl, rfl⟩ := h
      cases b <;> simp [Block.observe, h1, Exact, Stats.hitOrMiss, MethodStats.add, total, sizeDiff_eq,
        Event.isContains, Event.taken, Event.takenSize, Event.popped, Event.pushed, Event.isFlush,
        Event.flushedSize, Event.nexts, Event.isGet, Event.isGetMut, Event.found, Event.lookups]
  | takeMultiple ks =>
    cases h1 : C.takeMultiple c ks with
    | panic => simp [Block.observe, profiler, h1] at h
    | ok x =>
      obtain ⟨out, ks', c1⟩ := x
      cases h2 : Res.sub ks.length out.length with
      | panic => simp [Block.observe, profiler, h1, h2] at h
      | ok d =>
        obtain ⟨h3, rfl⟩ := sub_ok h2
        simp [Block.observe, profiler, h1, h2] at h
        obtain ⟨rfl, rfl, rfl⟩ := h
        simp [Block.observe, h1, Exact, MethodStats.add, total, sizeDiff_eq,
          Event.isContains, Event.taken, Event.takenSize, Event.popped, Event.pushed, Event.isFlush,
          Event.flushedSize, Event.nexts, Event.isGet, Event.isGetMut, Event.found, Event.lookups]
  | pop n =>
    cases h1 : C.pop c n with
    | panic => simp [Block.observe, profiler, h1] at h
    | ok x =>
      obtain ⟨out, c1⟩ := x
      cases h2 : Res.sub (C.size c) (C.size c1) with
      | panic => simp [Block.observe, profiler, h1, h2] at h
      | ok d =>
        obtain ⟨h3, rfl⟩ := sub_ok h2
        simp [Block.observe, profiler, h1, h2] at h
        obtain ⟨rfl, rfl, rfl⟩ := h
        simp [Block.observe, h1, Exact, MethodStats.add, total, sizeDiff_eq,
          Event.isContains, Event.taken, Event.takenSize, Event.popped, Event.pushed, Event.isFlush,
          Event.flushedSize, Event.nexts, Event.isGet, Event.isGetMut, Event.found, Event.lookups]
        omega
  | push l =>
    cases h1 : C.push c l with
    | panic => simp [Block.observe, profiler, h1] at h
    | ok x =>
      obtain ⟨out, c1⟩ := x
      simp [Block.observe, profiler, h1] at h
      obtain ⟨rfl, rfl, rfl⟩ := h
      simp [Block.observe, h1, Exact, MethodStats.add, total,
        Event.isContains, Event.taken, Event.takenSize, Event.popped, Event.pushed, Event.isFlush,
        Event.flushedSize, Event.nexts, Event.isGet, Event.isGetMut, Event.found, Event.lookups]
  | flush =>
    cases h1 : C.flush c with
    | panic => simp [Block.observe, profiler, h1] at h
    | ok x =>
      obtain ⟨out, c1⟩ := x
      simp [Block.observe, profiler, h1] at h
      obtain ⟨rfl, rfl, rfl⟩ := h
      simp [Block.observe, h1, Exact, MethodStats.add, total, sizeDiff_eq,
        Event.isContains, Event.taken, Event.takenSize, Event.popped, Event.pushed, Event.isFlush,
        Event.flushedSize, Event.nexts, Event.isGet, Event.isGetMut, Event.found, Event.lookups]

theorem total_cons (f : Event K V → Nat) (z : Nat) (e : Event K V) (es : List (Event K V)) :
    total f z (e :: es) = total f (total f z [e]) es := by
  cases e <;> rfl

theorem Exact.cons {st0 st1 st : Stats} {e : Event K V} {es : List (Event K V)}
    (h1 : Exact st0 [e] st1) (h2 : Exact st1 es st) : Exact st0 (e :: es) st := by
  unfold Exact at *
  obtain ⟨a1, a2, a3, a4, a5, a6, a7, a8, a9, a10, a11, a12, a13⟩ := h1
  obtain ⟨b1, b2, b3, b4, b5, b6, b7, b8, b9, b10, b11, b12, b13⟩ := h2
  refine ⟨?_, ?_, ?_, ?_, ?_, ?_, ?_, ?_, ?_, ?_, ?_, ?_, ?_⟩
  all_goals rw [total_cons]
  · rw [← a1, b1]
  · rw [← a2, b2]
  · rw [← a3, b3]
  · rw [← a4, b4]
  · rw [← a5, b5]
  · rw [← a6, b6]
  · rw [← a7, b7]
  · rw [← a8, b8]
  · rw [← a9, b9]
  · rw [← a10, b10]
  · rw [← a11, b11]
  · rw [← a12, b12]
  · rw [← a13, b13]

theorem get_exact (st : Stats) (b : Bool) :
    Exact st [(.get b : Event K V)] (Stats.hitOrMiss { st with get := st.get.add 1 0 } b) := by
  cases b <;> simp [Exact, Stats.hitOrMiss, MethodStats.add, total,
        Event.isContains, Event.taken, Event.takenSize, Event.popped, Event.pushed, Event.isFlush,
        Event.flushedSize, Event.nexts, Event.isGet, Event.isGetMut, Event.found, Event.lookups]

theorem getMut_exact (st : Stats) (b : Bool) :
    Exact st [(.getMut b : Event K V)] (Stats.hitOrMiss { st with getMut := st.getMut.add 1 0 } b) := by
  cases b <;> simp [Exact, Stats.hitOrMiss, MethodStats.add, total,
        Event.isContains, Event.taken, Event.takenSize, Event.popped, Event.pushed, Event.isFlush,
        Event.flushedSize, Event.nexts, Event.isGet, Event.isGetMut, Event.found, Event.lookups]

theorem reset_exact (st : Stats) : Exact st [(.reset : Event K V)] st.reset := by
  simp [Exact, Stats.reset, total]

/-- The results in a record. -/
def results : List (Event K V) → List (Obs K V)
  | [] => []
  | .op _ r _ _ :: es => r :: results es
  | _ :: es => results es

theorem profile_exact (C : Block K V) (G : GetOps C) : ∀ (as : List (Action K V)) (c : C.State)
    (st : Stats) (rs : List (Obs K V)) (c' : C.State) (st' : Stats),
    profile C G (c, st) as = .ok (rs, (c', st')) →
    ∃ es, record C G c as = .ok (es, c') ∧ rs = results es ∧ Exact st es st'
  | [], c, st, rs, c', st', h => by
    cases h
    refine ⟨[], rfl, rfl, ?_⟩
    simp [Exact, total]
  | .op o :: as, c, st, rs, c', st', h => by
    simp only [profile] at h
    cases h1 : (profiler C).observe (c, st) o with
    | panic => simp [h1] at h
    | ok x =>
      obtain ⟨r, c1, st1⟩ := x
      simp only [h1, Res.ok_bind] at h
      cases h2 : profile C G (c1, st1) as with
      | panic => simp [h2] at h
      | ok y =>
        obtain ⟨rs1, c2, st2⟩ := y
        simp only [h2, Res.ok_bind, Res.pure_eq, Res.ok.injEq] at h
        cases h
        obtain ⟨g1, g2⟩ := step_exact h1
        obtain ⟨es, e1, e2, e3⟩ := profile_exact C G as c1 st1 _ _ _ h2
        exact ⟨_ :: es, by simp [record, g1, e1], by simp [results, e2], g2.cons e3⟩
  | .get k f :: as, c, st, rs, c', st', h => by
    simp only [profile, profilerGet] at h
    cases h1 : G.get c k f with
    | panic => simp [h1] at h
    | ok x =>
      obtain ⟨r, c1⟩ := x
      simp only [h1, Res.ok_bind, Res.pure_eq] at h
      obtain ⟨es, e1, e2, e3⟩ := profile_exact C G as c1 _ _ _ _ h
      exact ⟨.get r.isSome :: es, by simp [record, h1, e1], by simp [results, e2],
        (get_exact st r.isSome).cons e3⟩
  | .getMut k f :: as, c, st, rs, c', st', h => by
    simp only [profile, profilerGet] at h
    cases h1 : G.getMut c k f with
    | panic => simp [h1] at h
    | ok x =>
      obtain ⟨r, c1⟩ := x
      simp only [h1, Res.ok_bind, Res.pure_eq] at h
      obtain ⟨es, e1, e2, e3⟩ := profile_exact C G as c1 _ _ _ _ h
      exact ⟨.getMut r.isSome :: es, by simp [record, h1, e1], by simp [results, e2],
        (getMut_exact st r.isSome).cons e3⟩
  | .reset :: as, c, st, rs, c', st', h => by
    simp only [profile] at h
    obtain ⟨es, e1, e2, e3⟩ := profile_exact C G as c _ _ _ _ h
    exact ⟨.reset :: es, by simp [record, e1], by simp [results, e2], (reset_exact st).cons e3⟩

/-- **C37.** Over any history of calls, accesses and resets on any container wrapped in a new
profiler, when the history returns: the container alone, given the same history, gives the same
results and ends in the same state, and every counter of the profiler is the count, since the last
reset, of what happened. -/
theorem C37_exact (C : Block K V) (G : GetOps C) (c : C.State) (as : List (Action K V))
    (rs : List (Obs K V)) (c' : C.State) (st : Stats)
    (h : profile C G (c, {}) as = .ok (rs, (c', st))) :
    ∃ es, record C G c as = .ok (es, c') ∧ rs = results es ∧ Exact {} es st :=
  profile_exact C G as c {} rs c' st h

/-- An action counts as many hits and misses as lookups. -/
theorem step_balance {C : Block K V} {G : GetOps C} : ∀ (as : List (Action K V)) (c : C.State)
    (st : Stats) (rs : List (Obs K V)) (c' : C.State) (st' : Stats),
    profile C G (c, st) as = .ok (rs, (c', st')) →
    st.hit.count + st.miss.count = st.contains.count + st.take.count + st.get.count + st.getMut.count →
    st'.hit.count + st'.miss.count =
      st'.contains.count + st'.take.count + st'.get.count + st'.getMut.count
  | [], c, st, rs, c', st', h, hb => by cases h; exact hb
  | .op o :: as, c, st, rs, c', st', h, hb => by
    simp only [profile] at h
    cases h1 : (profiler C).observe (c, st) o with
    | panic => simp [h1] at h
    | ok x =>
      obtain ⟨r, c1, st1⟩ := x
      simp only [h1, Res.ok_bind] at h
      cases h2 : profile C G (c1, st1) as with
      | panic => simp [h2] at h
      | ok y =>
        obtain ⟨rs1, c2, st2⟩ := y
        simp only [h2, Res.ok_bind, Res.pure_eq, Res.ok.injEq] at h
        cases h
        refine step_balance as c1 st1 _ _ _ h2 ?_
        have hle : (Event.op o r (C.size c) (C.size c1)).found ≤ (Event.op o r (C.size c) (C.size c1)).lookups := by
          cases o with
          | takeMultiple ks =>
            cases h3 : C.takeMultiple c ks with
            | panic => simp [Block.observe, profiler, h3] at h1
            | ok x =>
              obtain ⟨out, ks', c3⟩ := x
              cases h4 : Res.sub ks.length out.length with
              | panic => simp [Block.observe, profiler, h3, h4] at h1
              | ok d =>
                obtain ⟨h5, rfl⟩ := sub_ok h4
                simp [Block.observe, profiler, h3, h4] at h1
                obtain ⟨rfl, rfl, rfl⟩ := h1
                exact h5
          | contains k => cases r <;> simp [Event.found, Event.lookups] <;> split <;> simp_all
          | take k => cases r <;> simp [Event.found, Event.lookups] <;> split <;> simp_all
          | _ => simp [Event.found]
        obtain ⟨-, a1, a2, -, -, -, -, -, -, -, a3, a4, a5, a6⟩ := step_exact h1
        simp only [total] at a1 a2 a3 a4 a5 a6
        have : (Event.op o r (C.size c) (C.size c1)).lookups =
            (Event.op o r (C.size c) (C.size c1)).isContains + (Event.op o r (C.size c) (C.size c1)).taken +
            (Event.op o r (C.size c) (C.size c1)).isGet + (Event.op o r (C.size c) (C.size c1)).isGetMut := by
          cases o <;> simp [Event.lookups, Event.isContains, Event.taken, Event.isGet, Event.isGetMut]
        omega
  | .get k f :: as, c, st, rs, c', st', h, hb => by
    simp only [profile, profilerGet] at h
    cases h1 : G.get c k f with
    | panic => simp [h1] at h
    | ok x =>
      obtain ⟨r, c1⟩ := x
      simp only [h1, Res.ok_bind, Res.pure_eq] at h
      refine step_balance as c1 _ _ _ _ h ?_
      cases r <;> simp [Stats.hitOrMiss, MethodStats.add] <;> omega
  | .getMut k f :: as, c, st, rs, c', st', h, hb => by
    simp only [profile, profilerGet] at h
    cases h1 : G.getMut c k f with
    | panic => simp [h1] at h
    | ok x =>
      obtain ⟨r, c1⟩ := x
      simp only [h1, Res.ok_bind, Res.pure_eq] at h
      refine step_balance as c1 _ _ _ _ h ?_
      cases r <;> simp [Stats.hitOrMiss, MethodStats.add] <;> omega
  | .reset :: as, c, st, rs, c', st', h, _ => step_balance as c _ _ _ _ h (by simp [Stats.reset])

/-- **C37, balance**: hits and misses together are the keys looked up. -/
theorem C37_balance (C : Block K V) (G : GetOps C) (c : C.State) (as : List (Action K V))
    (rs : List (Obs K V)) (c' : C.State) (st : Stats)
    (h : profile C G (c, {}) as = .ok (rs, (c', st))) :
    st.hit.count + st.miss.count =
      st.contains.count + st.take.count + st.get.count + st.getMut.count :=
  step_balance as c {} rs c' st h rfl

/-- **C37, reset**: right after `reset()` every counter is 0. -/
theorem C37_reset (C : Block K V) (G : GetOps C) (c : C.State) (as : List (Action K V))
    (rs : List (Obs K V)) (c' : C.State) (st : Stats)
    (h : profile C G (c, {}) (as ++ [.reset]) = .ok (rs, (c', st))) : st = {} := by
  have : ∀ (as : List (Action K V)) (s : (profiler C).State) (rs : List (Obs K V)) (c' : C.State)
      (st : Stats), profile C G s (as ++ [.reset]) = .ok (rs, (c', st)) → st = {} := by
    intro as
    induction as with
    | nil =>
      intro s rs c' st h
      simp only [List.nil_append, profile, Stats.reset, Res.ok.injEq] at h
      cases h
      rfl
    | cons a as ih =>
      intro s rs c' st h
      cases a with
      | op o =>
        simp only [List.cons_append, profile] at h
        cases h1 : (profiler C).observe s o with
        | panic => simp [h1] at h
        | ok x =>
          obtain ⟨r, s1⟩ := x
          simp only [h1, Res.ok_bind] at h
          cases h2 : profile C G s1 (as ++ [.reset]) with
          | panic => simp [h2] at h
          | ok y =>
            obtain ⟨rs1, c2, st2⟩ := y
            simp only [h2, Res.ok_bind, Res.pure_eq, Res.ok.injEq] at h
            cases h
            exact ih _ _ _ _ h2
      | get k f =>
        simp only [List.cons_append, profile] at h
        cases h1 : (profilerGet G).get s k f with
        | panic => simp [h1] at h
        | ok x =>
          simp only [h1, Res.ok_bind] at h
          exact ih _ _ _ _ h
      | getMut k f =>
        simp only [List.cons_append, profile] at h
        cases h1 : (profilerGet G).getMut s k f with
        | panic => simp [h1] at h
        | ok x =>
          simp only [h1, Res.ok_bind] at h
          exact ih _ _ _ _ h
      | reset => exact ih _ _ _ _ h
  exact this as _ _ _ _ h

/-! ### Non-vacuity -/

def natSorter : Sorter (Nat × Nat) := Sorter.ofLe (fun a b => a.2 ≤ b.2)

/-- Pushes, hits, misses, a reset in the middle. -/
def demo : List (Action Nat Nat) :=
  [.op (.push [(1, 10), (2, 20), (3, 30)]), .op (.contains 7), .reset, .op (.contains 1), .get 2 id,
    .getMut 9 (· + 1), .op (.takeMultiple [1, 8]), .op (.pop 1), .op .flush]

/-- The history returns, and counts 3 hits (1, 2, 1) and 2 misses (9, 8), one unit popped, one element
flushed in two calls of `next`. -/
theorem demo_counts : ∃ rs c st, profile (arrayBlock (fun _ : Nat × Nat => 1) natSorter natSorter)
    (arrayGet _ _ _) (Array.new 3, {}) demo = .ok (rs, (c, st)) ∧ st.hit.count = 3 ∧ st.miss.count = 2 ∧
    st.push.count = 0 ∧ st.take.count = 2 ∧ st.pop.count = 1 ∧ st.flushIter.count = 2 :=
  ⟨_, _, _, rfl, by decide +kernel, by decide +kernel, by decide +kernel, by decide +kernel,
    by decide +kernel, by decide +kernel⟩

end Byoc.ProfilerProps
