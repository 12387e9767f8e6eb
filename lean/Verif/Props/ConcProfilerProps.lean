import Verif.Proofs.ConcProfiler
import Verif.Props.SequentialProps
import Verif.Props.ProfilerProps

/-!
# C73: a profiler shared by threads
-/

namespace Byoc
namespace ConcProfilerProps

open Byoc.Prof
open Byoc.Seq (Container SCall SObs runs_snoc)
open SequentialProps (NeverPanics arr arr_neverPanics)

variable {K V : Type}

/-- The calls executed by the wrapped container, in order, with their results. -/
def executedIn : List (PEv K V) → List (SCall K V × SObs K V)
  | [] => []
  | .executed _ c r :: l => (c, r) :: executedIn l
  | _ :: l => executedIn l

theorem executedIn_append (l l' : List (PEv K V)) :
    executedIn (l ++ l') = executedIn l ++ executedIn l' := by
  induction l with
  | nil => rfl
  | cons e l ih => cases e <;> simp [executedIn, ih]

/-- The statistics `f` is exact: it is the sum over the calls executed (`Prof.counts`: one per call of
`contains`, `get`, `get_mut` and `flush`, one per key asked to `take` and `take_multiple`, one per
element pushed, one per iteration, one per key found, one per key not found). -/
def ExactFor (f : Field) (l : List (PEv K V)) (st : Stats) : Prop :=
  (f.read st).count = sumExecuted f l

/-- Full statement of C73: however the threads interleave, over a container that works, no call panics,
and when no call is in progress the statistics are exact. -/
def C73_full : Prop :=
  ∀ (K V : Type) (C : Container K V) (s₀ : C.block.State) (n : Nat) (l : List (PEv K V))
    (s : PState K V C.block.State), NeverPanics C s₀ → PRun C (.new s₀ n) l s →
    (∀ i, .panicked i ∉ l) ∧
    ((∀ p ∈ s.threads, p = .idle) → ∀ f, f ≠ .pop → ExactFor f l s.stats)

/-- **C73**, proved part: however the threads interleave, panics included, at any moment a statistic
counts all the calls that returned and no more than the calls executed; when no call is in progress and
no thread panicked, it is exact. -/
theorem C73_partial {C : Container K V} {s₀ : C.block.State} {n : Nat} {l : List (PEv K V)}
    {s : PState K V C.block.State} (h : PRun C (.new s₀ n) l s) (f : Field) (hf : f ≠ .pop) :
    sumReturned f l ≤ (f.read s.stats).count ∧ (f.read s.stats).count ≤ sumExecuted f l ∧
    ((∀ p ∈ s.threads, p = .idle) → ExactFor f l s.stats) := by
  have hi := h.inv
  have h1 := hi.low f hf
  have h2 := hi.high f hf
  have h3 := hi.cur f hf
  have hle : (s.threads.map (Pc.high f)).sum ≤ (s.threads.map (Pc.cur f)).sum := by
    have key : ∀ ps : List (Pc K V), (∀ p ∈ ps, p.Ok C) →
        (ps.map (Pc.high f)).sum ≤ (ps.map (Pc.cur f)).sum := by
      intro ps
      induction ps with
      | nil => simp
      | cons p ps ih =>
        intro hok
        have a := ih (fun q hq => hok q (by simp [hq]))
        have b := Pc.high_le (hok p (by simp)) hf
        simp; omega
    exact key _ hi.ok
  refine ⟨by omega, by omega, fun hid => ?_⟩
  have : (s.threads.map (Pc.high f)).sum = 0 := by
    have : s.threads.map (Pc.high f) = s.threads.map fun _ => 0 :=
      List.map_congr_left fun p hp => by rw [hid p hp]; rfl
    rw [this]; simp
  unfold ExactFor; omega

/-- What a method `*_stats` returns is between the two sums as well. -/
theorem C73_read_partial {C : Container K V} {s₀ : C.block.State} {n : Nat} {l : List (PEv K V)}
    {s : PState K V C.block.State} (h : PRun C (.new s₀ n) l s) {l1 l2 : List (PEv K V)} {i f m}
    (hl : l = l1 ++ .stat i f m :: l2) (hf : f ≠ .pop) :
    sumReturned f l1 ≤ m.count ∧ m.count ≤ sumExecuted f l1 := by
  induction h generalizing l2 with
  | nil => cases l1 <;> simp at hl
  | @snoc l s s' j a e hr hs ih =>
    rcases List.eq_nil_or_concat l2 with rfl | ⟨l2', x, rfl⟩
    · have := List.append_inj' hl (by simp)
      obtain ⟨rfl, h2⟩ := this
      simp only [List.cons.injEq, and_true] at h2
      subst h2
      have hm : m = f.read s.stats := by
        unfold pstep at hs
        split at hs
        all_goals repeat' split at hs
        all_goals simp only [Option.some.injEq, Prod.mk.injEq, reduceCtorEq, PEv.stat.injEq,
          and_false] at hs
        obtain ⟨-, -, rfl, rfl⟩ := hs
        rfl
      have := C73_partial hr f hf
      rw [hm]
      exact ⟨this.1, this.2.1⟩
    · have h1 : l ++ [e] = (l1 ++ .stat i f m :: l2') ++ [x] := by simpa using hl
      have := List.append_inj' h1 (by simp)
      exact ih this.1

/-- The wrapped container serves the calls executed, one after the other. -/
theorem C73_order_partial {C : Container K V} {s₀ : C.block.State} {n : Nat} {l : List (PEv K V)}
    {s : PState K V C.block.State} (h : PRun C (.new s₀ n) l s) :
    C.runs s₀ ((executedIn l).map Prod.fst) = .ok ((executedIn l).map Prod.snd, s.cont) := by
  induction h with
  | nil => rfl
  | @snoc l s s' j a e hr hs ih =>
    unfold pstep at hs
    split at hs
    all_goals repeat' split at hs
    all_goals simp only [Option.some.injEq, Prod.mk.injEq, reduceCtorEq] at hs
    all_goals obtain ⟨rfl, rfl⟩ := hs
    all_goals rw [executedIn_append]
    all_goals first
      | (simp only [executedIn, List.append_nil, PState.setPc]; exact ih)
      | skip
    rename_i he
    simp only [executedIn, List.map_append, List.map_cons, List.map_nil, PState.setPc]
    exact runs_snoc ih he

/-! ### Calls that do not overlap -/

theorem applyAll_iter (st : Stats) (n : Nat) :
    applyAll st (List.replicate n (.add .flushIter 1 0)) =
      { st with flushIter := st.flushIter.add n 0 } := by
  induction n generalizing st with
  | zero => simp [applyAll, MethodStats.add]
  | succ n ih =>
    rw [List.replicate_succ, applyAll, ih]
    simp [Field.add, MethodStats.add]
    omega

theorem applyAll_hitOrMiss (st : Stats) (b : Bool) : applyAll st [hitOrMiss b] = st.hitOrMiss b := by
  cases b <;> rfl

/-- **C73**, proved part: a call of any thread during which nobody else uses the profiler does what it
does on a profiler that is not shared (`profiler`, whose counts are C37). -/
theorem C73_alone_partial {C : Container K V} {s : PState K V C.block.State} {i : Nat} {o : Op K V}
    {r : Obs K V} {c' : C.block.State} {st' : Stats} (hp : s.threads[i]? = some .idle)
    (h1 : s.readers = 0) (h2 : s.writer = false) (h3 : s.poison = false)
    (h : (profiler C.block).observe (s.cont, s.stats) o = .ok (r, (c', st'))) :
    ∃ l, PRun C s (l ++ [.returned i (.op o) (.obs r)]) { s with cont := c', stats := st' } := by
  have key : C.block.observe s.cont o = .ok (r, c') → 
      (todoAlone C (.op o) (.obs r) s.cont c').all Todo.isAdd = true →
      applyAll s.stats (todoAlone C (.op o) (.obs r) s.cont c') = st' →
      ∃ l, PRun C s (l ++ [.returned i (.op o) (.obs r)]) { s with cont := c', stats := st' } := by
    intro k1 k2 k3
    rw [← k3]
    exact run_call s c' hp h1 h2 h3 (by simp [Container.exec, k1]) k2
  cases o with
  | contains k =>
    cases e : C.block.contains s.cont k with
    | panic => simp [Block.observe, profiler, e] at h
    | ok x =>
      obtain ⟨b, t⟩ := x
      simp [Block.observe, profiler, e] at h
      obtain ⟨rfl, rfl, rfl⟩ := h
      refine key (by simp [Block.observe, e]) ?_ ?_
      · cases b <;> rfl
      · cases b <;> rfl
  | take k =>
    cases e : C.block.take s.cont k with
    | panic => simp [Block.observe, profiler, e] at h
    | ok x =>
      obtain ⟨b, t⟩ := x
      simp [Block.observe, profiler, e] at h
      obtain ⟨rfl, rfl, rfl⟩ := h
      refine key (by simp [Block.observe, e]) ?_ ?_
      · cases b <;> rfl
      · cases b <;> rfl
  | takeMultiple ks =>
    cases e : C.block.takeMultiple s.cont ks with
    | panic => simp [Block.observe, profiler, e] at h
    | ok x =>
      obtain ⟨out, ks', t⟩ := x
      cases e2 : Res.sub ks.length out.length with
      | panic => simp [Block.observe, profiler, e, e2] at h
      | ok d =>
        obtain ⟨h4, rfl⟩ := ProfilerProps.sub_ok e2
        simp [Block.observe, profiler, e, e2] at h
        obtain ⟨rfl, rfl, rfl⟩ := h
        refine key (by simp [Block.observe, e]) ?_ ?_
        · simp [todoAlone, todo, h4, Todo.isAdd]
        · simp [todoAlone, todo, h4, applyAll, Field.add, reads]
  | pop n =>
    cases e : C.block.pop s.cont n with
    | panic => simp [Block.observe, profiler, e] at h
    | ok x =>
      obtain ⟨out, t⟩ := x
      cases e2 : Res.sub (C.block.size s.cont) (C.block.size t) with
      | panic => simp [Block.observe, profiler, e, e2] at h
      | ok d =>
        obtain ⟨h4, rfl⟩ := ProfilerProps.sub_ok e2
        simp [Block.observe, profiler, e, e2] at h
        obtain ⟨rfl, rfl, rfl⟩ := h
        refine key (by simp [Block.observe, e]) ?_ ?_
        · simp [todoAlone, todo, reads, List.replicate_succ, h4, Todo.isAdd]
        · simp [todoAlone, todo, h4, applyAll, Field.add, reads, List.replicate_succ]
  | push l =>
    cases e : C.block.push s.cont l with
    | panic => simp [Block.observe, profiler, e] at h
    | ok x =>
      obtain ⟨out, t⟩ := x
      simp [Block.observe, profiler, e] at h
      obtain ⟨rfl, rfl, rfl⟩ := h
      exact key (by simp [Block.observe, e]) rfl rfl
  | flush =>
    cases e : C.block.flush s.cont with
    | panic => simp [Block.observe, profiler, e] at h
    | ok x =>
      obtain ⟨out, t⟩ := x
      simp [Block.observe, profiler, e] at h
      obtain ⟨rfl, rfl, rfl⟩ := h
      refine key (by simp [Block.observe, e]) ?_ ?_
      · simp [todoAlone, todo, Todo.isAdd]
      · simp only [todoAlone, todo, applyAll, applyAll_iter, reads]
        rfl

/-- **C73**, proved part: calls that do not overlap, whatever the threads that make them, return and
count as on a profiler that is not shared. -/
theorem C73_serial_partial {C : Container K V} : ∀ (calls : List (Nat × Op K V))
    (s : PState K V C.block.State) (rs : List (Obs K V)) (c' : C.block.State) (st' : Stats),
    (∀ p ∈ s.threads, p = .idle) → s.readers = 0 → s.writer = false → s.poison = false →
    (∀ x ∈ calls, x.1 < s.threads.length) →
    (profiler C.block).observes (s.cont, s.stats) (calls.map Prod.snd) = .ok (rs, (c', st')) →
    ∃ l, PRun C s l { s with cont := c', stats := st' } ∧
      ((calls.zip rs).map fun x => PEv.returned x.1.1 (.op x.1.2) (.obs x.2)).Sublist l := by
  intro calls
  induction calls with
  | nil =>
    intro s rs c' st' _ _ _ _ _ h
    simp only [List.map_nil, Block.observes, Res.ok.injEq, Prod.mk.injEq] at h
    obtain ⟨rfl, rfl, rfl⟩ := h
    exact ⟨[], .nil, by simp⟩
  | cons x calls ih =>
    intro s rs c' st' h0 h1 h2 h3 h4 h
    obtain ⟨i, o⟩ := x
    simp only [List.map_cons, Block.observes] at h
    cases e1 : (profiler C.block).observe (s.cont, s.stats) o with
    | panic => rw [e1] at h; simp at h
    | ok y =>
      obtain ⟨r, c1, st1⟩ := y
      rw [e1] at h
      simp only [Res.ok_bind] at h
      cases e2 : (profiler C.block).observes (c1, st1) (calls.map Prod.snd) with
      | panic => rw [e2] at h; simp at h
      | ok z =>
        obtain ⟨rs1, c2, st2⟩ := z
        rw [e2] at h
        simp only [Res.ok_bind, Res.pure_eq, Res.ok.injEq, Prod.mk.injEq] at h
        obtain ⟨rfl, rfl, rfl⟩ := h
        have hlt : i < s.threads.length := h4 (i, o) (by simp)
        have hp : s.threads[i]? = some .idle := by
          rw [List.getElem?_eq_getElem hlt, h0 _ (List.getElem_mem hlt)]
        obtain ⟨l1, r1⟩ := C73_alone_partial hp h1 h2 h3 e1
        obtain ⟨l2, r2, hsub⟩ := ih { s with cont := c1, stats := st1 } rs1 c' st' h0 h1 h2 h3
          (fun x hx => h4 x (by simp [hx])) e2
        refine ⟨_, r1.trans r2, ?_⟩
        simp only [List.zip_cons_cons, List.map_cons]
        rw [List.append_assoc]
        exact (List.Sublist.cons_cons _ hsub).trans (List.sublist_append_right _ _)

/-! ### Panics -/

/-- A thread panics only because another thread holds a guard of the statistics at this very moment, or
they are poisoned, or the container panicked, or a subtraction underflowed. -/
theorem C73_why_partial {C : Container K V} {s₀ : C.block.State} {n : Nat} {l : List (PEv K V)}
    {s s' : PState K V C.block.State} (h : PRun C (.new s₀ n) l s) {i j : Nat} {a}
    (hs : pstep C s i a = some (s', .panicked j)) : i = j ∧
    ((∃ k p, k ≠ i ∧ s.threads[k]? = some p ∧ (p.w = 1 ∨ p.rd = 1)) ∨ s.poison = true ∨
     (∃ c b, s.threads[i]? = some (.pre c b) ∧ C.exec c s.cont = .panic) ∨
     (∃ c r ts, s.threads[i]? = some (.todo c r (.underflow :: ts))) ∨
     (∃ c r ts, s.threads[i]? = some (.held c r .underflowHeld ts))) := by
  have hi := h.inv
  have busy : ∀ p, s.threads[i]? = some p → p.w = 0 → p.rd = 0 → (s.writer = true ∨ s.readers ≠ 0) →
      ∃ k p, k ≠ i ∧ s.threads[k]? = some p ∧ (p.w = 1 ∨ p.rd = 1) := by
    intro p hp hw hr hb
    have key : ∀ g : Pc K V → Nat, (∀ q, g q = 0 ∨ g q = 1) → g p = 0 → (s.threads.map g).sum ≠ 0 →
        ∃ k q, k ≠ i ∧ s.threads[k]? = some q ∧ g q = 1 := by
      intro g g01 gp gs
      by_contra hc
      apply gs
      have : s.threads.map g = s.threads.map fun _ => 0 := by
        refine List.map_congr_left fun q hq => ?_
        obtain ⟨k, hk⟩ := List.mem_iff_getElem?.1 hq
        rcases g01 q with h0 | h0
        · exact h0
        · by_cases hki : k = i
          · subst hki; rw [hp] at hk; cases hk; exact gp
          · exact absurd ⟨k, q, hki, hk, h0⟩ hc
      rw [this]; simp
    rcases hb with hb | hb
    · obtain ⟨k, q, h1, h2, h3⟩ := key Pc.w (fun q => by cases q <;> simp [Pc.w]) hw
        (by rw [hi.w, hb]; simp)
      exact ⟨k, q, h1, h2, .inl h3⟩
    · obtain ⟨k, q, h1, h2, h3⟩ := key Pc.rd (fun q => by cases q <;> simp [Pc.rd]) hr
        (by rw [hi.rd]; exact hb)
      exact ⟨k, q, h1, h2, .inr h3⟩
  unfold pstep at hs
  split at hs
  case _ c hp => simp at hs
  case _ f hp =>
    split at hs
    · rename_i hc
      simp only [Option.some.injEq, Prod.mk.injEq, PEv.panicked.injEq] at hs
      refine ⟨hs.2, ?_⟩
      rcases hc with hc | hc
      · exact .inr (.inl hc)
      · exact .inl (busy _ hp rfl rfl (.inl hc))
    · simp at hs
  case _ f hp => simp at hs
  case _ c b hp =>
    split at hs
    · simp at hs
    · split at hs
      · rename_i he
        simp only [Option.some.injEq, Prod.mk.injEq, PEv.panicked.injEq] at hs
        exact ⟨hs.2, .inr (.inr (.inl ⟨c, b, hp, he⟩))⟩
      · simp at hs
  case _ c r b a hp => split at hs <;> simp at hs
  case _ c r hp => simp at hs
  case _ c r t ts hp =>
    split at hs
    · rename_i hc
      simp only [Option.some.injEq, Prod.mk.injEq, PEv.panicked.injEq] at hs
      refine ⟨hs.2, ?_⟩
      rcases hc with rfl | hc | hc
      · exact .inr (.inr (.inr (.inl ⟨c, r, ts, hp⟩)))
      · exact .inr (.inl hc)
      · exact .inl (busy _ hp rfl rfl hc)
    · simp at hs
  case _ c r t ts hp =>
    have hok := hi.ok _ (List.mem_of_getElem? hp)
    split at hs
    · simp at hs
    · rename_i hc
      simp only [Option.some.injEq, Prod.mk.injEq, PEv.panicked.injEq] at hs
      refine ⟨hs.2, .inr (.inr (.inr (.inr ?_)))⟩
      cases t with
      | add f n sz => exact absurd rfl (hc f n sz)
      | underflow => exact absurd rfl hok.1
      | underflowHeld => exact ⟨c, r, ts, hp⟩
  case _ => cases hs

private def Behind (C : Container K V) : Pc K V → Prop
  | .idle => True
  | .pre _ _ => True
  | .post c r _ _ => ∃ s t, C.exec c s = .ok (r, t)
  | .todo c _ ts => ts = [] → c = .capacity ∨ c = .size
  | .dead _ => True
  | _ => False

private theorem todo_ne_nil {C : Container K V} {c r s t} (h : C.exec c s = .ok (r, t)) (b a : List Nat)
    (h0 : todo c r b a = []) : c = .capacity ∨ c = .size := by
  cases c with
  | capacity => exact .inl rfl
  | size => exact .inr rfl
  | get k =>
    simp only [Container.exec] at h
    cases h1 : C.get s k with
    | panic => simp [h1] at h
    | ok x =>
      simp only [h1, Res.ok_bind, Res.pure_eq, Res.ok.injEq, Prod.mk.injEq] at h
      obtain ⟨rfl, rfl⟩ := h
      simp [todo] at h0
  | getMut k =>
    simp only [Container.exec] at h
    cases h1 : C.getMut s k with
    | panic => simp [h1] at h
    | ok x =>
      simp only [h1, Res.ok_bind, Res.pure_eq, Res.ok.injEq, Prod.mk.injEq] at h
      obtain ⟨rfl, rfl⟩ := h
      simp [todo] at h0
  | op o =>
    exfalso
    simp only [Container.exec] at h
    cases h1 : C.block.observe s o with
    | panic => simp [h1] at h
    | ok x =>
      simp only [h1, Res.ok_bind, Res.pure_eq, Res.ok.injEq, Prod.mk.injEq] at h
      obtain ⟨rfl, rfl⟩ := h
      cases o with
      | contains k =>
        simp only [Block.observe] at h1
        cases h2 : C.block.contains s k with
        | panic => simp [h2] at h1
        | ok y =>
          simp only [h2, Res.ok_bind, Res.pure_eq, Res.ok.injEq] at h1
          subst h1; simp [todo] at h0
      | take k =>
        simp only [Block.observe] at h1
        cases h2 : C.block.take s k with
        | panic => simp [h2] at h1
        | ok y =>
          simp only [h2, Res.ok_bind, Res.pure_eq, Res.ok.injEq] at h1
          subst h1; simp [todo] at h0
      | takeMultiple ks =>
        simp only [Block.observe] at h1
        cases h2 : C.block.takeMultiple s ks with
        | panic => simp [h2] at h1
        | ok y =>
          simp only [h2, Res.ok_bind, Res.pure_eq, Res.ok.injEq] at h1
          subst h1; simp [todo] at h0
      | pop n =>
        simp only [Block.observe] at h1
        cases h2 : C.block.pop s n with
        | panic => simp [h2] at h1
        | ok y =>
          simp only [h2, Res.ok_bind, Res.pure_eq, Res.ok.injEq] at h1
          subst h1; simp only [todo] at h0; split at h0 <;> simp at h0
      | push l =>
        simp only [Block.observe] at h1
        cases h2 : C.block.push s l with
        | panic => simp [h2] at h1
        | ok y =>
          simp only [h2, Res.ok_bind, Res.pure_eq, Res.ok.injEq] at h1
          subst h1; simp [todo] at h0
      | flush =>
        simp only [Block.observe] at h1
        cases h2 : C.block.flush s with
        | panic => simp [h2] at h1
        | ok y =>
          simp only [h2, Res.ok_bind, Res.pure_eq, Res.ok.injEq] at h1
          subst h1; simp [todo] at h0

/-- Once a `pop` underflowed, no call (besides `capacity` and `size`) that a thread makes afterwards
returns, nor does any method reading the statistics. -/
theorem C73_poisoned {C : Container K V} {s s' : PState K V C.block.State} {l : List (PEv K V)} {i : Nat}
    (hpo : s.poison = true) (hp : s.threads[i]? = some .idle) (h : PRun C s l s') :
    (∀ c r, .returned i c r ∈ l → c = .capacity ∨ c = .size) ∧ ∀ f m, .stat i f m ∉ l := by
  suffices hk : s'.poison = true ∧ (∃ p, s'.threads[i]? = some p ∧ Behind C p) ∧
      (∀ c r, .returned i c r ∈ l → c = .capacity ∨ c = .size) ∧ ∀ f m, .stat i f m ∉ l from hk.2.2
  induction h with
  | nil => exact ⟨hpo, ⟨_, hp, trivial⟩, by simp, by simp⟩
  | @snoc l s1 s2 j a e hr hs ih =>
    obtain ⟨h1, ⟨p, h2, h3⟩, h4, h5⟩ := ih
    have hpo2 : s2.poison = true := by
      unfold pstep at hs
      split at hs
      all_goals repeat' split at hs
      all_goals simp only [Option.some.injEq, Prod.mk.injEq, reduceCtorEq] at hs
      all_goals obtain ⟨rfl, -⟩ := hs
      all_goals first | exact h1 | rfl
    by_cases hji : j = i
    · subst hji
      have hlt := lt_of_get h2
      cases p with
      | held c r t ts => exact h3.elim
      | reading f => exact h3.elim
      | dead x => cases a <;> simp [pstep, h2] at hs
      | idle =>
        cases a with
        | call c =>
          simp only [pstep, h2, Option.some.injEq, Prod.mk.injEq] at hs
          obtain ⟨rfl, rfl⟩ := hs
          refine ⟨hpo2, ⟨.pre c [], by simp [PState.setPc, hlt], trivial⟩, ?_, ?_⟩
          · intro c r hc; exact h4 c r (by simpa using hc)
          · intro f m hc; exact h5 f m (by simpa using hc)
        | readStat f =>
          simp only [pstep, h2, h1, true_or, if_true, Option.some.injEq, Prod.mk.injEq] at hs
          obtain ⟨rfl, rfl⟩ := hs
          refine ⟨hpo2, ⟨.dead none, by simp [PState.setPc, hlt], trivial⟩, ?_, ?_⟩
          · intro c r hc; exact h4 c r (by simpa using hc)
          · intro f m hc; exact h5 f m (by simpa using hc)
        | go => simp [pstep, h2] at hs
      | pre c b =>
        cases a with
        | go =>
          simp only [pstep, h2] at hs
          split at hs
          · simp only [Option.some.injEq, Prod.mk.injEq] at hs
            obtain ⟨rfl, rfl⟩ := hs
            refine ⟨hpo2, ⟨.pre c (b ++ [C.block.size s1.cont]), by simp [PState.setPc, hlt], trivial⟩, ?_, ?_⟩
            · intro c r hc; exact h4 c r (by simpa using hc)
            · intro f m hc; exact h5 f m (by simpa using hc)
          · split at hs
            · simp only [Option.some.injEq, Prod.mk.injEq] at hs
              obtain ⟨rfl, rfl⟩ := hs
              refine ⟨hpo2, ⟨.dead none, by simp [PState.setPc, hlt], trivial⟩, ?_, ?_⟩
              · intro c r hc; exact h4 c r (by simpa using hc)
              · intro f m hc; exact h5 f m (by simpa using hc)
            · rename_i r t he
              simp only [Option.some.injEq, Prod.mk.injEq] at hs
              obtain ⟨rfl, rfl⟩ := hs
              refine ⟨hpo2, ⟨.post c r b [], by simp [PState.setPc, hlt], ⟨_, _, he⟩⟩, ?_, ?_⟩
              · intro c r hc; exact h4 c r (by simpa using hc)
              · intro f m hc; exact h5 f m (by simpa using hc)
        | _ => simp [pstep, h2] at hs
      | post c r b a' =>
        cases a with
        | go =>
          simp only [pstep, h2] at hs
          split at hs
          · simp only [Option.some.injEq, Prod.mk.injEq] at hs
            obtain ⟨rfl, rfl⟩ := hs
            refine ⟨hpo2, ⟨.post c r b (a' ++ [C.block.size s1.cont]), by simp [PState.setPc, hlt], h3⟩, ?_, ?_⟩
            · intro c r hc; exact h4 c r (by simpa using hc)
            · intro f m hc; exact h5 f m (by simpa using hc)
          · simp only [Option.some.injEq, Prod.mk.injEq] at hs
            obtain ⟨rfl, rfl⟩ := hs
            obtain ⟨s0, t0, he⟩ := h3
            refine ⟨hpo2, ⟨.todo c r (todo c r b a'), by simp [PState.setPc, hlt],
              fun h0 => todo_ne_nil he b a' h0⟩, ?_, ?_⟩
            · intro c r hc; exact h4 c r (by simpa using hc)
            · intro f m hc; exact h5 f m (by simpa using hc)
        | _ => simp [pstep, h2] at hs
      | todo c r ts =>
        cases a with
        | go =>
          cases ts with
          | nil =>
            simp only [pstep, h2, Option.some.injEq, Prod.mk.injEq] at hs
            obtain ⟨rfl, rfl⟩ := hs
            refine ⟨hpo2, ⟨.idle, by simp [PState.setPc, hlt], trivial⟩, ?_, ?_⟩
            · intro c' r' hc
              rcases List.mem_append.1 hc with hc | hc
              · exact h4 c' r' hc
              · simp only [List.mem_singleton, PEv.returned.injEq, true_and] at hc
                rw [hc.1]; exact h3 rfl
            · intro f m hc; exact h5 f m (by simpa using hc)
          | cons t ts =>
            simp only [pstep, h2, h1, true_or, or_true, if_true, Option.some.injEq,
              Prod.mk.injEq] at hs
            obtain ⟨rfl, rfl⟩ := hs
            refine ⟨hpo2, ⟨.dead (some (c, r, t :: ts)), by simp [PState.setPc, hlt], trivial⟩, ?_, ?_⟩
            · intro c r hc; exact h4 c r (by simpa using hc)
            · intro f m hc; exact h5 f m (by simpa using hc)
        | _ => simp [pstep, h2] at hs
    · have hfr : s2.threads[i]? = s1.threads[i]? ∧ (∀ c r, e ≠ .returned i c r) ∧
          ∀ f m, e ≠ .stat i f m := by
        unfold pstep at hs
        split at hs
        all_goals repeat' split at hs
        all_goals simp only [Option.some.injEq, Prod.mk.injEq, reduceCtorEq] at hs
        all_goals obtain ⟨rfl, rfl⟩ := hs
        all_goals refine ⟨by simp [PState.setPc, List.getElem?_set_ne hji], ?_, ?_⟩
        all_goals intros
        all_goals simp
        all_goals intro h
        all_goals exact absurd h hji
      refine ⟨hpo2, ⟨p, by rw [hfr.1]; exact h2, h3⟩, ?_, ?_⟩
      · intro c r hc
        rcases List.mem_append.1 hc with hc | hc
        · exact h4 c r hc
        · exact absurd (List.mem_singleton.1 hc).symm (hfr.2.1 c r)
      · intro f m hc
        rcases List.mem_append.1 hc with hc | hc
        · exact h5 f m hc
        · exact hfr.2.2 f m (List.mem_singleton.1 hc).symm

/-! ### Schedules -/

/-- Perform a schedule. -/
def play (C : Container K V) : PState K V C.block.State → List (Nat × PAct K V) →
    Option (List (PEv K V) × PState K V C.block.State)
  | s, [] => some ([], s)
  | s, (i, a) :: l => match pstep C s i a with
    | some (s', e) => (play C s' l).map fun x => (e :: x.1, x.2)
    | none => none

theorem play_run {C : Container K V} {s₀ : PState K V C.block.State} {as} :
    ∀ {s l l' s'}, PRun C s₀ l s → play C s as = some (l', s') → PRun C s₀ (l ++ l') s' := by
  induction as with
  | nil =>
    intro s l l' s' h hp
    simp only [play, Option.some.injEq, Prod.mk.injEq] at hp
    obtain ⟨rfl, rfl⟩ := hp
    simpa using h
  | cons x as ih =>
    intro s l l' s' h hp
    obtain ⟨i, a⟩ := x
    simp only [play] at hp
    split at hp
    · rename_i s1 e hs
      simp only [Option.map_eq_some_iff] at hp
      obtain ⟨⟨l2, s2⟩, h2, h3⟩ := hp
      simp only [Prod.mk.injEq] at h3
      obtain ⟨rfl, rfl⟩ := h3
      simpa using ih (h.snoc hs) h2
    · simp at hp

/-- `n` steps of thread `i`. -/
def steps (i n : Nat) : List (Nat × PAct Nat Nat) := List.replicate n (i, .go)

/-- Thread 0 pushes (1, 7), then looks for key 1; while it counts this, thread 1 takes key 1. -/
def takeUnderCount : List (Nat × PAct Nat Nat) :=
  [(0, .call (.op (.push [(1, 7)])))] ++ steps 0 5 ++
  [(0, .call (.op (.contains 1)))] ++ steps 0 3 ++
  [(1, .call (.op (.take 1)))] ++ steps 1 5

def isPanic : PEv Nat Nat → Bool
  | .panicked 1 => true
  | _ => false

def isTake : PEv Nat Nat → Bool
  | .executed 1 (.op (.take 1)) (.obs (.opt (some (1, 7)))) => true
  | _ => false

/-- Two threads use a profiler over an array, one panics, and the element it took is lost. -/
theorem C73_lost : ∃ l s, PRun arr (.new (Array.new 2) 2) l s ∧ .panicked 1 ∈ l ∧
    .executed 1 (.op (.take 1)) (.obs (.opt (some (1, 7)))) ∈ l ∧ s.cont.values = [] := by
  have h1 : (play arr (.new (Array.new 2) 2) takeUnderCount).any (fun x => x.1.any isPanic &&
      x.1.any isTake && x.2.cont.values.isEmpty) = true := by decide +kernel
  cases hp : play arr (.new (Array.new 2) 2) takeUnderCount with
  | none => rw [hp] at h1; simp at h1
  | some x =>
    obtain ⟨l, s⟩ := x
    rw [hp] at h1
    simp only [Option.any_some, Bool.and_eq_true] at h1
    obtain ⟨⟨h2, h3⟩, h4⟩ := h1
    refine ⟨l, s, by simpa using play_run .nil hp, ?_, ?_, by simpa using h4⟩
    · obtain ⟨e, he, hl⟩ := List.any_eq_true.1 h2
      unfold isPanic at hl
      split at hl
      · exact he
      · simp at hl
    · obtain ⟨e, he, hl⟩ := List.any_eq_true.1 h3
      unfold isTake at hl
      split at hl
      · exact he
      · simp at hl

/-- **C73 is false of the code.** -/
theorem C73_false : ¬ C73_full := by
  intro h
  obtain ⟨l, s, hr, hm, -⟩ := C73_lost
  exact (h Nat Nat arr (Array.new 2) 2 l s arr_neverPanics hr).1 1 hm

/-- Thread 1 pushes between the moments thread 0, in `pop`, reads the sizes. -/
def pushUnderPop : List (Nat × PAct Nat Nat) :=
  [(0, .call (.op (.pop 1)))] ++ steps 0 2 ++
  [(1, .call (.op (.push [(1, 7), (2, 8)])))] ++ steps 1 5 ++ steps 0 6

/-- Then the statistics are poisoned (and nothing works anymore: `C73_poisoned`), although no two
threads used them at the same time. -/
theorem C73_poisons : ∃ l s, PRun arr (.new (Array.new 2) 2) l s ∧ s.poison = true ∧
    s.threads[1]? = some .idle := by
  have h1 : (play arr (.new (Array.new 2) 2) pushUnderPop).any (fun x => x.2.poison &&
      (match x.2.threads[1]? with | some .idle => true | _ => false)) = true := by decide +kernel
  cases hp : play arr (.new (Array.new 2) 2) pushUnderPop with
  | none => rw [hp] at h1; simp at h1
  | some x =>
    obtain ⟨l, s⟩ := x
    rw [hp] at h1
    simp only [Option.any_some, Bool.and_eq_true] at h1
    refine ⟨l, s, by simpa using play_run .nil hp, h1.1, ?_⟩
    have := h1.2
    split at this
    · assumption
    · simp at this

/-- Two overlapping calls that both return: a schedule with no contention on the statistics, which then
are exact. -/
def overlapping : List (Nat × PAct Nat Nat) :=
  [(0, .call (.op (.push [(1, 7), (2, 8)]))), (1, .call (.op (.take 1)))] ++ steps 0 2 ++ steps 1 2 ++
  steps 0 3 ++ steps 1 7

theorem C73_witness : ∃ l s, PRun arr (.new (Array.new 2) 2) l s ∧ (∀ p ∈ s.threads, p = .idle) ∧
    (Field.push.read s.stats).count = 2 ∧ (Field.hit.read s.stats).count = 1 := by
  have h1 : (play arr (.new (Array.new 2) 2) overlapping).any (fun x =>
      x.2.threads.all (fun p => match p with | .idle => true | _ => false) &&
      (Field.push.read x.2.stats).count == 2 && (Field.hit.read x.2.stats).count == 1) = true := by
    decide +kernel
  cases hp : play arr (.new (Array.new 2) 2) overlapping with
  | none => rw [hp] at h1; simp at h1
  | some x =>
    obtain ⟨l, s⟩ := x
    rw [hp] at h1
    simp only [Option.any_some, Bool.and_eq_true, beq_iff_eq, List.all_eq_true] at h1
    refine ⟨l, s, by simpa using play_run .nil hp, ?_, h1.1.2, h1.2⟩
    intro p hpm
    have := h1.1.1 p hpm
    split at this
    · rfl
    · simp at this

end ConcProfilerProps
end Byoc
