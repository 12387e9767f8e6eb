import Verif.Proofs.ServeSeq
import Verif.Props.SequentialProps
import Verif.Props.SocketProps

/-!
# C116: a container shared by remote clients and local threads
-/

namespace Byoc.ServeSeqProps

open Byoc.Seq Byoc.ServeSeq Byoc.SequentialProps
open Byoc.Socket (Request Response)
open Byoc.SocketProps (direct)

variable {K V S : Type}

/-- What the clients and the local threads saw (`l`) and the container left (`final`) are those of a
sequential execution:
* the calls made by local threads and by server threads take effect one at a time, each between the
  moment it is made and the moment it returns (`Linearizable`, C35);
* a client's call that returned `x` took effect once, on its server thread, between the moment the client
  made it and the moment it returned, and `x` is the response made of its result;
* the calls that take effect on a server thread are those its client made. -/
structure Serves (C : Container K V) (s₀ : C.block.State) (remote : Nat → Bool) (l : List (NEv K V))
    (final : C.block.State) : Prop where
  order : Linearizable C s₀ (inners l) final
  got : ∀ l1 l2 i r x, l = l1 ++ .got i r x :: l2 → ∃ a b d o,
    l1 = a ++ .asked i r :: b ++ .inner (.executed i (callOf r) o) :: d ∧ Still i b ∧ Still i d ∧
    respOf r o = some x
  executed : ∀ l1 l2 i c o, remote i = true → l = l1 ++ .inner (.executed i c o) :: l2 →
    ∃ a b r, l1 = a ++ .asked i r :: b ∧ Still i b ∧ c = callOf r

/-- Full statement of C116: over any container that works with one thread, any number of clients and
local threads and any schedule, the execution is that of a sequential one and no client's call fails. -/
def C116_full : Prop :=
  ∀ (K V : Type) (C : Container K V) (s₀ : C.block.State) (n : Nat) (remote : Nat → Bool)
    (l : List (NEv K V)) (s : Node K V C.block.State), C.ReadOnly → NeverPanics C s₀ →
    NRun C (.new s₀ n remote) l s →
    Serves C s₀ remote l s.seq.cont ∧ ∀ i r, .failed i r ∉ l ∧ .mismatch i r ∉ l

/-- A response made of the result of the call of a request is what the same call made directly on the
container returns. -/
theorem C116_direct (C : Container K V) (s t : C.block.State) (r : Request K V) (o : SObs K V)
    (h : C.exec (callOf r) s = .ok (o, t)) :
    ∃ x, respOf r o = some x ∧ direct C.block s r = .ok (x, t) := by
  cases r with
  | capacity =>
    simp [callOf, Container.exec] at h; obtain ⟨rfl, rfl⟩ := h; exact ⟨_, rfl, rfl⟩
  | size =>
    simp [callOf, Container.exec] at h; obtain ⟨rfl, rfl⟩ := h; exact ⟨_, rfl, rfl⟩
  | contains k =>
    simp only [callOf, Container.exec, Block.observe] at h
    cases h1 : C.block.contains s k with
    | panic => rw [h1] at h; simp at h
    | ok y =>
      rw [h1] at h; simp at h; obtain ⟨rfl, rfl⟩ := h
      exact ⟨_, rfl, by simp only [direct, h1]; rfl⟩
  | take k =>
    simp only [callOf, Container.exec, Block.observe] at h
    cases h1 : C.block.take s k with
    | panic => rw [h1] at h; simp at h
    | ok y =>
      rw [h1] at h; simp at h; obtain ⟨rfl, rfl⟩ := h
      exact ⟨_, rfl, by simp only [direct, h1]; rfl⟩
  | takeMultiple ks =>
    simp only [callOf, Container.exec, Block.observe] at h
    cases h1 : C.block.takeMultiple s ks with
    | panic => rw [h1] at h; simp at h
    | ok y =>
      rw [h1] at h; simp at h; obtain ⟨rfl, rfl⟩ := h
      exact ⟨_, rfl, by simp only [direct, h1]; rfl⟩
  | pop n =>
    simp only [callOf, Container.exec, Block.observe] at h
    cases h1 : C.block.pop s n with
    | panic => rw [h1] at h; simp at h
    | ok y =>
      rw [h1] at h; simp at h; obtain ⟨rfl, rfl⟩ := h
      exact ⟨_, rfl, by simp only [direct, h1]; rfl⟩
  | push l =>
    simp only [callOf, Container.exec, Block.observe] at h
    cases h1 : C.block.push s l with
    | panic => rw [h1] at h; simp at h
    | ok y =>
      rw [h1] at h; simp at h; obtain ⟨rfl, rfl⟩ := h
      exact ⟨_, rfl, by simp only [direct, h1]; rfl⟩
  | flush =>
    simp only [callOf, Container.exec, Block.observe] at h
    cases h1 : C.block.flush s with
    | panic => rw [h1] at h; simp at h
    | ok y =>
      rw [h1] at h; simp at h; obtain ⟨rfl, rfl⟩ := h
      exact ⟨_, rfl, by simp only [direct, h1]; rfl⟩

/-! ### Every event in its past -/

private theorem skipped_result {C : Container K V} {s s' : SState K V C.block.State} {i j a c o e}
    (hs : sstep C s i a = some (s', e)) (he : e = .skipped j c o) : c.onPoison = some o := by
  simp only [sstep] at hs
  split at hs
  all_goals repeat' split at hs
  all_goals simp only [Option.some.injEq, Prod.mk.injEq, reduceCtorEq] at hs
  all_goals obtain ⟨-, h2⟩ := hs
  all_goals (rw [he] at h2)
  all_goals (try (cases h2; done))
  cases h2
  assumption

private theorem got_past {C : Container K V} {s₀ : C.block.State} {n remote}
    {s s' : Node K V C.block.State} {j a i r x}
    {l : List (NEv K V)} (hr : NRun C (.new s₀ n remote) l s) {e : NEv K V} (he : e = .got i r x)
    (h : nstep C s j a = some (s', e)) :
    ∃ o, respOf r o = some x ∧
      (Done l i r (.executed i (callOf r) o) ∨ Done l i r (.skipped i (callOf r) o)) := by
  have hc := hr.coherent (new_coherent _ _ _)
  simp only [nstep] at h
  split at h
  all_goals (try (simp at h; done))
  all_goals rename_i hx
  all_goals repeat' split at h
  all_goals simp only [Option.some.injEq, Prod.mk.injEq, reduceCtorEq] at h
  all_goals obtain ⟨-, h2⟩ := h
  all_goals (rw [he] at h2)
  all_goals (try (cases h2; done))
  cases h2
  obtain ⟨p, hp⟩ := hr.thread hx
  exact (hc _ p _ hp hx).2

private theorem failed_past {C : Container K V} {s₀ : C.block.State} {n remote}
    {s s' : Node K V C.block.State} {j a i r}
    {l : List (NEv K V)} (hr : NRun C (.new s₀ n remote) l s) {e : NEv K V} (he : e = .failed i r)
    (h : nstep C s j a = some (s', e)) : Done l i r (.panicked i (callOf r)) := by
  have hc := hr.coherent (new_coherent _ _ _)
  simp only [nstep] at h
  split at h
  all_goals (try (simp at h; done))
  all_goals rename_i hx
  all_goals repeat' split at h
  all_goals simp only [Option.some.injEq, Prod.mk.injEq, reduceCtorEq] at h
  all_goals obtain ⟨-, h2⟩ := h
  all_goals (rw [he] at h2)
  all_goals (try (cases h2; done))
  cases h2
  obtain ⟨p, hp⟩ := hr.thread hx
  exact hc _ p _ hp hx

private theorem mismatch_past {C : Container K V} {s₀ : C.block.State} {n remote}
    {s s' : Node K V C.block.State} {j a i r}
    {l : List (NEv K V)} (hr : NRun C (.new s₀ n remote) l s) {e : NEv K V} (he : e = .mismatch i r)
    (h : nstep C s j a = some (s', e)) : False := by
  have hc := hr.coherent (new_coherent _ _ _)
  simp only [nstep] at h
  split at h
  all_goals (try (simp at h; done))
  all_goals rename_i hx
  all_goals repeat' split at h
  all_goals simp only [Option.some.injEq, Prod.mk.injEq, reduceCtorEq] at h
  all_goals obtain ⟨-, h2⟩ := h
  all_goals (rw [he] at h2)
  all_goals (try (cases h2; done))
  cases h2
  obtain ⟨p, hp⟩ := hr.thread hx
  obtain ⟨-, o, h1, -⟩ := hc _ p _ hp hx
  have := accepts_respOf h1
  contradiction

private theorem skipped_past {C : Container K V} {s₀ : C.block.State} {n remote}
    {s s' : Node K V C.block.State} {j a i c o} {l : List (NEv K V)}
    (hr : NRun C (.new s₀ n remote) l s) {e : NEv K V} (he : e = .inner (.skipped i c o))
    (h : nstep C s j a = some (s', e)) :
    c.onPoison = some o ∧ ∃ j c, .inner (.panicked j c) ∈ l := by
  have key : ∀ {q : SState K V C.block.State} {b : SAct K V} {e},
      sstep C s.seq j b = some (q, e) → e = .skipped i c o →
      c.onPoison = some o ∧ ∃ j c, .inner (.panicked j c) ∈ l := by
    intro q b e hs he
    refine ⟨skipped_result hs he, ?_⟩
    subst he
    obtain ⟨j, c, hm⟩ := C35_skip_after_panic hr.inner hs
    simp only [inners, List.mem_filterMap] at hm
    obtain ⟨x, hx, h1⟩ := hm
    cases x <;> simp [innerOf] at h1
    subst h1
    exact ⟨j, c, hx⟩
  simp only [nstep] at h
  split at h
  all_goals (try (simp at h; done))
  all_goals repeat' split at h
  all_goals simp only [Option.some.injEq, Prod.mk.injEq, reduceCtorEq] at h
  all_goals obtain ⟨-, h2⟩ := h
  all_goals (rw [he] at h2)
  all_goals (try (cases h2; done))
  all_goals (simp only [NEv.inner.injEq] at h2; exact key (by assumption) h2)

private theorem kept_set {α : Type} {l : List α} {i j : Nat} {a b y : α} (hy : l[j]? = some y)
    (hi : (l.set j a)[i]? = some b) (hab : a ≠ b) : l[i]? = some b := by
  by_cases hij : i = j
  · subst hij; exact absurd (set_self hy hi).symm hab
  · rw [← set_other l j i a hij]; exact hi

private theorem after_not_here (r : Request K V) (e : Seq.SEv K V) : after r e ≠ .here := by
  unfold after
  repeat' split
  all_goals simp

/-- The kind of thread never changes. -/
private theorem kept_here {C : Container K V} {s₀ : C.block.State} {n remote}
    {s : Node K V C.block.State} {l : List (NEv K V)} (hr : NRun C (.new s₀ n remote) l s) :
    ∀ i, s.ends[i]? = some .here → remote i = false := by
  induction hr with
  | nil =>
    intro i hi
    simp only [Node.new, List.getElem?_map, Option.map_eq_some_iff] at hi
    obtain ⟨m, hm, h1⟩ := hi
    have : m = i := by
      rw [List.getElem?_range (by
        have := (List.getElem?_eq_some_iff.1 hm).1
        simpa using this)] at hm
      simpa using hm.symm
    subst this
    split at h1
    · cases h1
    · rename_i h2; simpa using h2
  | snoc hr hs ih =>
    intro i hi
    rename_i l s s' j a e
    refine ih i ?_
    clear ih
    simp only [nstep] at hs
    split at hs
    all_goals (try (simp at hs; done))
    all_goals rename_i hx
    all_goals repeat' split at hs
    all_goals simp only [Option.some.injEq, Prod.mk.injEq, reduceCtorEq] at hs
    all_goals obtain ⟨rfl, rfl⟩ := hs
    all_goals first
      | exact hi
      | exact kept_set hx hi (after_not_here _ _)
      | exact kept_set hx hi (by simp)

/-- An event of thread `i` on the shared container, when `i` is a server thread. -/
private theorem executed_past {C : Container K V} {s₀ : C.block.State} {n remote}
    {s s' : Node K V C.block.State} {j a i c o} {l : List (NEv K V)}
    (hr : NRun C (.new s₀ n remote) l s) (hi : remote i = true) {e : NEv K V}
    (he : e = .inner (.executed i c o)) (h : nstep C s j a = some (s', e)) :
    ∃ r, c = callOf r ∧ Asked l i r := by
  have hc := hr.coherent (new_coherent _ _ _)
  have hk := kept_here hr
  simp only [nstep] at h
  split at h
  all_goals (try (simp at h; done))
  all_goals rename_i hx
  all_goals repeat' split at h
  all_goals simp only [Option.some.injEq, Prod.mk.injEq, reduceCtorEq] at h
  all_goals obtain ⟨-, h2⟩ := h
  all_goals (rw [he] at h2)
  all_goals (try (cases h2; done))
  · rename_i q e hs
    cases h2
    obtain ⟨h1, -⟩ := sstep_shape hs
    replace h1 : i = j := h1
    subst h1
    rw [hk _ hx] at hi; cases hi
  · rename_i q e hs
    cases h2
    obtain ⟨h1, t, ht⟩ := step_executes hs
    subst h1
    simp [sstep, ht] at hs
  · rename_i r q e hs
    cases h2
    obtain ⟨h1, t, ht⟩ := step_executes hs
    have h3 := (sstep_shape hs).1
    replace h3 : i = j := h3
    subst h3
    exact ⟨_, hc _ _ _ ht hx⟩
  · rename_i q e hs
    cases h2
    obtain ⟨h1, t, ht⟩ := step_executes hs
    subst h1
    simp [sstep, ht] at hs
  · rename_i q e hs
    cases h2
    obtain ⟨h1, t, ht⟩ := step_executes hs
    subst h1
    simp [sstep, ht] at hs

/-! ### C116 -/

/-- Whatever happens, panics included: the calls take effect one at a time, each between the moment it is
made and the moment it returns; a client's call that returned took effect once in between, unless it is a
`push` that came after a panic (it returns nothing and stores nothing); no client gets a response of the
wrong kind; a client's call fails only because its server thread panicked while answering it; what
server threads execute is what their clients asked. -/
theorem C116_panics {C : Container K V} (hro : C.ReadOnly) {s₀ : C.block.State} {n : Nat}
    {remote : Nat → Bool} {l : List (NEv K V)} {s : Node K V C.block.State}
    (h : NRun C (.new s₀ n remote) l s) :
    Linearizable C s₀ (inners l) s.seq.cont ∧
    (∀ l1 l2 i r x, l = l1 ++ .got i r x :: l2 →
      (∃ a b d o, l1 = a ++ .asked i r :: b ++ .inner (.executed i (callOf r) o) :: d ∧ Still i b ∧
        Still i d ∧ respOf r o = some x) ∨
      ((∃ y, r = .push y) ∧ x = .push [] ∧ ∃ j c, .inner (.panicked j c) ∈ l1)) ∧
    (∀ l1 l2 i r, l = l1 ++ .failed i r :: l2 → ∃ a b d,
      l1 = a ++ .asked i r :: b ++ .inner (.panicked i (callOf r)) :: d ∧ Still i b ∧ Still i d) ∧
    (∀ i r, .mismatch i r ∉ l) ∧
    (∀ l1 l2 i c o, remote i = true → l = l1 ++ .inner (.executed i c o) :: l2 →
      ∃ a b r, l1 = a ++ .asked i r :: b ∧ Still i b ∧ c = callOf r) := by
  refine ⟨C35_partial hro h.inner, ?_, ?_, ?_, ?_⟩
  · intro l1 l2 i r x hl
    obtain ⟨s1, s2, j, a, hr, hs⟩ := h.event _ _ _ hl
    obtain ⟨o, ho, ⟨a, b, d, h1, h2, h3⟩ | ⟨a, b, d, h1, h2, h3⟩⟩ := got_past hr rfl hs
    · exact .inl ⟨a, b, d, o, h1, h2, h3, ho⟩
    · right
      -- what a poisoned `Sequential` returns
      obtain ⟨t1, t2, j', a', hr', hs'⟩ := hr.event (a ++ .asked i r :: b) _ d h1
      obtain ⟨h4, h5⟩ := skipped_past hr' rfl hs'
      refine ⟨?_, ?_, ?_⟩
      · cases r <;> simp [callOf, SCall.onPoison] at h4
        exact ⟨_, rfl⟩
      · cases r <;> simp [callOf, SCall.onPoison] at h4
        subst h4
        simpa [respOf] using ho.symm
      · obtain ⟨j, c, hj⟩ := h5
        exact ⟨j, c, by rw [h1]; exact List.mem_append_left _ hj⟩
  · intro l1 l2 i r hl
    obtain ⟨s1, s2, j, a, hr, hs⟩ := h.event _ _ _ hl
    exact failed_past hr rfl hs
  · intro i r hm
    obtain ⟨l1, l2, hl⟩ := List.append_of_mem hm
    obtain ⟨s1, s2, j, a, hr, hs⟩ := h.event _ _ _ hl
    exact mismatch_past hr rfl hs
  · intro l1 l2 i c o hi hl
    obtain ⟨s1, s2, j, a, hr, hs⟩ := h.event _ _ _ hl
    obtain ⟨r, h1, a, b, h2, h3⟩ := executed_past hr hi rfl hs
    exact ⟨a, b, r, h2, h3, h1⟩

/-- **C116**, proved part: as long as no call panics, the execution is that of a sequential one and no
client's call fails. -/
theorem C116_partial {C : Container K V} (hro : C.ReadOnly) {s₀ : C.block.State} {n : Nat}
    {remote : Nat → Bool} {l : List (NEv K V)} {s : Node K V C.block.State}
    (h : NRun C (.new s₀ n remote) l s) (hp : ∀ i c, .inner (.panicked i c) ∉ l) :
    Serves C s₀ remote l s.seq.cont ∧ ∀ i r, .failed i r ∉ l ∧ .mismatch i r ∉ l := by
  obtain ⟨h1, h2, h3, h4, h5⟩ := C116_panics hro h
  refine ⟨⟨h1, ?_, h5⟩, fun i r => ⟨?_, h4 i r⟩⟩
  · intro l1 l2 i r x hl
    rcases h2 l1 l2 i r x hl with h6 | ⟨-, -, j, c, h6⟩
    · exact h6
    · exact absurd (by rw [hl]; exact List.mem_append_left _ h6) (hp j c)
  · intro hm
    obtain ⟨l1, l2, hl⟩ := List.append_of_mem hm
    obtain ⟨a, b, d, h6, -⟩ := h3 l1 l2 i r hl
    exact absurd (by rw [hl, h6]; simp) (hp i (callOf r))

/-- A server thread panics only if the container's method itself panics, or some call panicked before,
or another thread is in the middle of a call. -/
theorem C116_why {C : Container K V} {s₀ : C.block.State} {n : Nat} {remote : Nat → Bool}
    {l : List (NEv K V)} {s s' : Node K V C.block.State} (h : NRun C (.new s₀ n remote) l s)
    {i j : Nat} {a c} (hs : nstep C s i a = some (s', .inner (.panicked j c))) :
    (∃ j c, .inner (.panicked j c) ∈ l) ∨ C.exec c s.seq.cont = .panic ∨
      ∃ (j : Nat) (p : Pc K V C.block.State), j ≠ i ∧ s.seq.threads[j]? = some p ∧ p.Busy := by
  have key : ∀ {q : SState K V C.block.State} {b : SAct K V} {e},
      sstep C s.seq i b = some (q, e) → e = .panicked j c → (∃ j c, .inner (.panicked j c) ∈ l) ∨
      C.exec c s.seq.cont = .panic ∨
      ∃ (j : Nat) (p : Pc K V C.block.State), j ≠ i ∧ s.seq.threads[j]? = some p ∧ p.Busy := by
    intro q b e hs he
    subst he
    rcases C35_why_panic h.inner hs with ⟨j, c, hm⟩ | h1 | h1
    · left
      simp only [inners, List.mem_filterMap] at hm
      obtain ⟨x, hx, h1⟩ := hm
      cases x <;> simp [innerOf] at h1
      subst h1
      exact ⟨j, c, hx⟩
    · exact .inr (.inl h1)
    · exact .inr (.inr h1)
  simp only [nstep] at hs
  split at hs
  all_goals repeat' split at hs
  all_goals simp only [Option.some.injEq, Prod.mk.injEq, reduceCtorEq, and_false] at hs
  all_goals obtain ⟨-, h2⟩ := hs
  all_goals (simp only [NEv.inner.injEq] at h2; exact key (by assumption) h2)

/-! ### A client's call completes -/

/-- Perform a schedule. -/
def plays (C : Container K V) : Node K V C.block.State → List (Nat × NAct K V) →
    Option (List (NEv K V) × Node K V C.block.State)
  | s, [] => some ([], s)
  | s, (i, a) :: l => match nstep C s i a with
    | some (s', e) => (plays C s' l).map fun x => (e :: x.1, x.2)
    | none => none

theorem plays_run {C : Container K V} {s₀ : Node K V C.block.State} {as} :
    ∀ {s l l' s'}, NRun C s₀ l s → plays C s as = some (l', s') → NRun C s₀ (l ++ l') s' := by
  induction as with
  | nil =>
    intro s l l' s' h hp
    simp only [plays, Option.some.injEq, Prod.mk.injEq] at hp
    obtain ⟨rfl, rfl⟩ := hp
    simpa using h
  | cons x as ih =>
    intro s l l' s' h hp
    obtain ⟨i, a⟩ := x
    simp only [plays] at hp
    split at hp
    · rename_i s1 e hs
      simp only [Option.map_eq_some_iff] at hp
      obtain ⟨⟨l2, s2⟩, h2, h3⟩ := hp
      simp only [Prod.mk.injEq] at h3
      obtain ⟨rfl, rfl⟩ := h3
      simpa using ih (h.snoc hs) h2
    · simp at hp

/-- A call of the client of thread `i`, from the moment it is made until it returns, while nobody else
does anything. -/
def roundTrip (i : Nat) (r : Request K V) : List (Nat × NAct K V) :=
  [(i, .ask r), (i, .serve), (i, .go), (i, .go), (i, .go), (i, .go), (i, .go), (i, .deliver)]

private theorem exec_of_direct {C : Container K V} {s t : C.block.State} {r : Request K V} {x}
    (h : direct C.block s r = .ok (x, t)) :
    ∃ o, C.exec (callOf r) s = .ok (o, t) ∧ respOf r o = some x := by
  cases he : C.exec (callOf r) s with
  | ok y =>
    obtain ⟨o, u⟩ := y
    obtain ⟨x', h1, h2⟩ := C116_direct C s u r o he
    rw [h] at h2
    simp only [Res.ok.injEq, Prod.mk.injEq] at h2
    obtain ⟨rfl, rfl⟩ := h2
    exact ⟨o, rfl, h1⟩
  | panic =>
    exfalso
    cases r with
    | capacity => simp [callOf, Container.exec] at he
    | size => simp [callOf, Container.exec] at he
    | contains k =>
      simp only [callOf, Container.exec, Block.observe] at he
      simp only [direct] at h
      cases h1 : C.block.contains s k with
      | panic => rw [h1] at h; cases h
      | ok y => rw [h1] at he; simp at he
    | take k =>
      simp only [callOf, Container.exec, Block.observe] at he
      simp only [direct] at h
      cases h1 : C.block.take s k with
      | panic => rw [h1] at h; cases h
      | ok y => rw [h1] at he; simp at he
    | takeMultiple k =>
      simp only [callOf, Container.exec, Block.observe] at he
      simp only [direct] at h
      cases h1 : C.block.takeMultiple s k with
      | panic => rw [h1] at h; cases h
      | ok y => rw [h1] at he; simp at he
    | pop k =>
      simp only [callOf, Container.exec, Block.observe] at he
      simp only [direct] at h
      cases h1 : C.block.pop s k with
      | panic => rw [h1] at h; cases h
      | ok y => rw [h1] at he; simp at he
    | push k =>
      simp only [callOf, Container.exec, Block.observe] at he
      simp only [direct] at h
      cases h1 : C.block.push s k with
      | panic => rw [h1] at h; cases h
      | ok y => rw [h1] at he; simp at he
    | flush =>
      simp only [callOf, Container.exec, Block.observe] at he
      simp only [direct] at h
      cases h1 : C.block.flush s with
      | panic => rw [h1] at h; cases h
      | ok y => rw [h1] at he; simp at he

private theorem leaving_go {C : Container K V} {s : SState K V C.block.State} {i : Nat} {r : Request K V}
    {o} (h : s.threads[i]? = some (.leaving (callOf r) o)) :
    sstep C s i .go =
      some ((s.release (callOf r).holding).setPc i (.closing (callOf r) o), .silent i) := by
  cases r <;> simp [sstep, h, callOf]

private theorem plays_cons {C : Container K V} {s s1 s2 : Node K V C.block.State} {i a e as l}
    (h1 : nstep C s i a = some (s1, e)) (h2 : plays C s1 as = some (l, s2)) :
    plays C s ((i, a) :: as) = some (e :: l, s2) := by
  simp [plays, h1, h2]

private theorem start_go {C : Container K V} {s : SState K V C.block.State} {i : Nat} {c}
    (h : s.threads[i]? = some (.start c)) (h1 : s.oPoison = false) (h2 : s.oWriter = false)
    (h3 : s.oReaders = 0) :
    ∃ s', sstep C s i .go = some (s', .silent i) ∧ s'.threads = s.threads.set i (.locked c) ∧
      s'.iPoison = s.iPoison ∧ s'.iWriter = s.iWriter ∧ s'.iReaders = s.iReaders ∧ s'.cont = s.cont := by
  have hk : ∀ m : Option Lock.Mode, (s.acquire m).iWriter = s.iWriter ∧
      (s.acquire m).iReaders = s.iReaders := by
    rintro (_ | _ | _) <;> simp [SState.acquire]
  refine ⟨(s.acquire c.holding).setPc i (.locked c), ?_, by simp [SState.setPc], by simp [SState.setPc],
    (hk _).1, (hk _).2, by simp [SState.setPc]⟩
  simp only [sstep, h, h1, h2, h3]
  cases hm : c.mode <;> simp

private theorem locked_go {C : Container K V} {s : SState K V C.block.State} {i : Nat} {c}
    (h : s.threads[i]? = some (.locked c)) (h1 : s.iPoison = false) (h2 : s.iWriter = false)
    (h3 : s.iReaders = 0) :
    ∃ s', sstep C s i .go = some (s', .silent i) ∧ s'.threads = s.threads.set i (.inside c s.cont) ∧
      s'.cont = s.cont := by
  simp only [sstep, h, h1, h2, h3]
  cases hm : c.write <;> simp [SState.setPc]

private theorem inside_go {C : Container K V} {s : SState K V C.block.State} {i : Nat} {c o t u}
    (h : s.threads[i]? = some (.inside c u)) (he : C.exec c u = .ok (o, t)) :
    sstep C s i .go = some ({ s with cont := if c.write then t else s.cont }.setPc i (.leaving c o),
      .executed i c o) := by
  simp [sstep, h, he]

private theorem closing_go {C : Container K V} {s : SState K V C.block.State} {i : Nat} {c o}
    (h : s.threads[i]? = some (.closing c o)) :
    sstep C s i .go = some ((s.dropGuard c.write).setPc i .idle, .returned i c o) := by
  simp [sstep, h]

private theorem nstep_serve {C : Container K V} {q q' : SState K V C.block.State} {ends i} {r : Request K V}
    {e} (h : ends[i]? = some (.sent r)) (hs : sstep C q i (.call (callOf r)) = some (q', e)) :
    nstep C ⟨q, ends⟩ i .serve = some (⟨q', ends.set i (.busy r)⟩, .inner e) := by
  simp [nstep, h, hs, Node.setEnd]

private theorem nstep_go {C : Container K V} {q q' : SState K V C.block.State} {ends i} {r : Request K V}
    {e} (h : ends[i]? = some (.busy r)) (hs : sstep C q i .go = some (q', e)) :
    nstep C ⟨q, ends⟩ i .go = some (⟨q', ends.set i (after r e)⟩, .inner e) := by
  simp [nstep, h, hs, Node.setEnd]

private theorem nstep_deliver {C : Container K V} {q : SState K V C.block.State} {ends i} {r : Request K V}
    {x} (h : ends[i]? = some (.back r x)) (hs : Socket.accepts r x = true) :
    nstep C ⟨q, ends⟩ i .deliver = some (⟨q, ends.set i .quiet⟩, .got i r x) := by
  simp [nstep, h, hs, Node.setEnd]

/-- The call of an otherwise idle `Sequential`. -/
private theorem trip {C : Container K V} {q : SState K V C.block.State} {ends : List (End K V)} {i : Nat}
    {r : Request K V} {o t x} (hth : q.threads[i]? = some .idle) (hen : ends[i]? = some .quiet)
    (h1 : q.oPoison = false) (h2 : q.iPoison = false) (h3 : q.oWriter = false) (h4 : q.oReaders = 0)
    (h5 : q.iWriter = false) (h6 : q.iReaders = 0) (he : C.exec (callOf r) q.cont = .ok (o, t))
    (hx : respOf r o = some x) (hc : (if (callOf r).write then t else q.cont) = t) :
    ∃ l' s', plays C ⟨q, ends⟩ (roundTrip i r) = some (.asked i r :: l' ++ [.got i r x], s') ∧
      s'.seq.cont = t := by
  have hl := (List.getElem?_eq_some_iff.1 hth).1
  have hl' := (List.getElem?_eq_some_iff.1 hen).1
  have hacc := accepts_respOf hx
  have ha : after r (.returned i (callOf r) o) = .back r x := by simp [after, hx]
  have g : ∀ {α : Type} {l : List α} (a : α), i < l.length → (l.set i a)[i]? = some a :=
    fun a h => List.getElem?_set_self h
  have s1 : sstep C q i (.call (callOf r)) = some (q.setPc i (.start (callOf r)), .called i (callOf r)) := by
    simp [sstep, hth]
  obtain ⟨q2, s2, t2, p2, w2, r2, c2⟩ := start_go (C := C) (s := q.setPc i (.start (callOf r)))
    (i := i) (c := callOf r) (g _ hl) h1 h3 h4
  obtain ⟨q3, s3, t3, c3⟩ := locked_go (C := C) (s := q2) (i := i) (c := callOf r)
    (by rw [t2]; exact g _ (by simpa [SState.setPc] using hl)) (p2.trans h2) (w2.trans h5) (r2.trans h6)
  have hl3 : i < q3.threads.length := by rw [t3, t2]; simpa [SState.setPc] using hl
  have hl2 : i < q2.threads.length := by rw [t2]; simpa [SState.setPc] using hl
  have s4 := inside_go (C := C) (s := q3) (i := i) (c := callOf r) (o := o) (t := t) (u := q.cont)
    (by rw [t3, c2]; exact g _ hl2) he
  have s5 := leaving_go (C := C) (s := { q3 with cont := if (callOf r).write then t else q3.cont }.setPc i
    (.leaving (callOf r) o)) (i := i) (r := r) (o := o) (g _ hl3)
  have s6 := closing_go (C := C) (s := (({ q3 with cont := if (callOf r).write then t else q3.cont }.setPc i
    (.leaving (callOf r) o)).release (callOf r).holding).setPc i (.closing (callOf r) o)) (i := i)
    (c := callOf r) (o := o) (g _ (by simpa [SState.setPc] using hl3))
  refine ⟨[.inner (.called i (callOf r)), .inner (.silent i), .inner (.silent i),
    .inner (.executed i (callOf r) o), .inner (.silent i), .inner (.returned i (callOf r) o)], _,
    plays_cons (s1 := ⟨q, ends.set i (.sent r)⟩) (by simp [nstep, hen, Node.setEnd])
    (plays_cons (nstep_serve (g _ hl') s1)
    (plays_cons (nstep_go (g _ (by simpa using hl')) s2)
    (plays_cons (nstep_go (g _ (by simpa using hl')) s3)
    (plays_cons (nstep_go (g _ (by simpa using hl')) s4)
    (plays_cons (nstep_go (g _ (by simpa using hl')) s5)
    (plays_cons (nstep_go (g _ (by simpa using hl')) s6)
    (plays_cons (nstep_deliver ((g _ (by simpa using hl')).trans (congrArg some ha)) hacc) rfl))))))), ?_⟩
  show ((SState.dropGuard _ _).setPc i _).cont = t
  simp [SState.setPc, c3, c2, hc]

/-- When no call panicked and no thread is in the middle of one or holds a cell, a client's call returns
what the same call made directly on the container returns, and leaves the container as it does. -/
theorem C116_completes {C : Container K V} (hro : C.ReadOnly) {s₀ : C.block.State} {n : Nat}
    {remote : Nat → Bool} {l : List (NEv K V)} {s : Node K V C.block.State}
    (h : NRun C (.new s₀ n remote) l s) (hp : ∀ i c, .inner (.panicked i c) ∉ l)
    (hq : ∀ p ∈ s.seq.threads, p = Seq.Pc.idle) {i : Nat} (hi : s.ends[i]? = some .quiet)
    (r : Request K V) {x t} (hd : direct C.block s.seq.cont r = .ok (x, t)) :
    ∃ l' s', plays C s (roundTrip i r) = some (.asked i r :: l' ++ [.got i r x], s') ∧
      s'.seq.cont = t := by
  obtain ⟨o, he, hx⟩ := exec_of_direct hd
  obtain ⟨p, hth⟩ := h.thread hi
  obtain rfl := hq p (List.mem_of_getElem? hth)
  have hinv := h.inner.inv (new_inv s₀ n)
  have hno : ∀ j c, Seq.SEv.panicked j c ∉ inners l := by
    intro j c hm
    simp only [inners, List.mem_filterMap] at hm
    obtain ⟨x, hx, h1⟩ := hm
    cases x <;> simp [innerOf] at h1
    subst h1
    exact hp j c hx
  have hpo := fun hh => h.inner.poison (by simp [Node.new, SState.new]) hh
  have hz : ∀ f : Seq.Pc K V C.block.State → Nat, f .idle = 0 → (s.seq.threads.map f).sum = 0 := by
    intro f hf
    rw [List.eq_replicate_of_mem hq]
    exact sum_rep f _ _ hf
  have hb : ∀ b, b2n b = 0 → b = false := by intro b; cases b <;> simp
  obtain ⟨seq, ends⟩ := s
  refine trip hth hi ?_ ?_ ?_ ?_ ?_ ?_ he hx ?_
  · by_contra hc
    obtain ⟨j, c, hm⟩ := hpo (.inl (by simpa using hc))
    exact hno j c hm
  · by_contra hc
    obtain ⟨j, c, hm⟩ := hpo (.inr (.inl (by simpa using hc)))
    exact hno j c hm
  · exact hb _ (by rw [← hinv.xo]; exact hz _ rfl)
  · rw [← hinv.so]; exact hz _ rfl
  · exact hb _ (by rw [← hinv.wi]; exact hz _ rfl)
  · rw [← hinv.ri]; exact hz _ rfl
  · split
    · rfl
    · rename_i hw
      exact (hro _ _ _ _ (by simpa using hw) he).symm

/-! ### Concrete executions: an `Array` shared by local threads and the server thread of a client -/

private theorem plays_of {n : Nat} {remote : Nat → Bool} {as : List (Nat × NAct Nat Nat)}
    {P : List (NEv Nat Nat) → Node Nat Nat arr.block.State → Bool}
    (h : (plays arr (.new (Array.new 2) n remote) as).any (fun x => P x.1 x.2) = true) :
    ∃ l s, NRun arr (.new (Array.new 2) n remote) l s ∧ P l s = true := by
  cases hp : plays arr (.new (Array.new 2) n remote) as with
  | none => rw [hp] at h; simp at h
  | some x =>
    obtain ⟨l, s⟩ := x
    rw [hp] at h
    exact ⟨l, s, by simpa using plays_run .nil hp, by simpa using h⟩

/-- A client asks for key 1, a local thread inserts it meanwhile, and the server thread waits for it. -/
def meanwhile : List (Nat × NAct Nat Nat) :=
  [(1, .ask (.take 1)), (0, .act (.call (.op (.push [(1, 7)])))), (1, .serve), (0, .act .go),
   (0, .act .go), (0, .act .go), (0, .act .go), (1, .go), (0, .act .go), (1, .go), (1, .go), (1, .go),
   (1, .go), (1, .deliver)]

private def panics : NEv Nat Nat → Bool
  | .inner (.panicked _ _) => true
  | _ => false

private def gets7 : NEv Nat Nat → Bool
  | .got 1 (.take 1) (.take (some (1, 7))) => true
  | _ => false

/-- The hypotheses of `C116_partial` are met by an execution in which a client gets what a local thread
inserted while the client's call was on its way. -/
theorem C116_witness : ∃ l s, NRun arr (.new (Array.new 2) 2 (· == 1)) l s ∧
    (∀ i c, .inner (.panicked i c) ∉ l) ∧ .got 1 (.take 1) (.take (some (1, 7))) ∈ l := by
  obtain ⟨l, s, h1, h2⟩ := plays_of (n := 2) (remote := (· == 1)) (as := meanwhile)
    (P := fun l _ => !l.any panics && l.any gets7) (by decide +kernel)
  simp only [Bool.and_eq_true, Bool.not_eq_true', List.any_eq_false, List.any_eq_true] at h2
  refine ⟨l, s, h1, fun i c hm => by simpa [panics] using h2.1 _ hm, ?_⟩
  obtain ⟨e, he, h3⟩ := h2.2
  unfold gets7 at h3
  split at h3
  · exact he
  · cases h3

/-- A local thread is in the middle of a call when the server thread starts one. -/
def killed : List (Nat × NAct Nat Nat) :=
  [(1, .ask (.take 2)), (0, .act (.call (.op (.take 1)))), (1, .serve), (0, .act .go), (1, .go),
   (0, .act .go), (1, .go), (1, .hangup)]

private def fails : NEv Nat Nat → Bool
  | .failed 1 (.take 2) => true
  | _ => false

/-- A client's call fails because a local thread was in the middle of a call. -/
theorem C116_contention_fails : ∃ l s, NRun arr (.new (Array.new 2) 2 (· == 1)) l s ∧
    .failed 1 (.take 2) ∈ l := by
  obtain ⟨l, s, h1, h2⟩ := plays_of (n := 2) (remote := (· == 1)) (as := killed)
    (P := fun l _ => l.any fails) (by decide +kernel)
  refine ⟨l, s, h1, ?_⟩
  obtain ⟨e, he, h3⟩ := List.any_eq_true.1 h2
  unfold fails at h3
  split at h3
  · exact he
  · cases h3

/-- Two local threads contend, one panics and drops its clone; then a client pushes. -/
def lostPush : List (Nat × NAct Nat Nat) :=
  [(0, .act (.call (.op (.take 1)))), (1, .act (.call (.op (.take 2)))), (0, .act .go), (1, .act .go),
   (0, .act .go), (1, .act .go), (1, .act .unwind), (0, .act .go), (0, .act .go), (0, .act .go),
   (2, .ask (.push [(5, 5)])), (2, .serve), (2, .go), (2, .deliver)]

private def getsNothing : NEv Nat Nat → Bool
  | .got 2 (.push [(5, 5)]) (.push []) => true
  | _ => false

/-- After a panic of a local thread, a client's `push` returns nothing, as if everything were stored, and
stores nothing: the element is lost. -/
theorem C116_push_loses : ∃ l s, NRun arr (.new (Array.new 2) 3 (· == 2)) l s ∧
    .got 2 (.push [(5, 5)]) (.push []) ∈ l ∧ s.seq.cont.values = [] := by
  obtain ⟨l, s, h1, h2⟩ := plays_of (n := 3) (remote := (· == 2)) (as := lostPush)
    (P := fun l s => l.any getsNothing && s.seq.cont.values.isEmpty) (by decide +kernel)
  simp only [Bool.and_eq_true, List.any_eq_true] at h2
  refine ⟨l, s, h1, ?_, by simpa using h2.2⟩
  obtain ⟨e, he, h3⟩ := h2.1
  unfold getsNothing at h3
  split at h3
  · exact he
  · cases h3

theorem C116_false : ¬ C116_full := by
  intro h
  obtain ⟨l, s, hr, hm⟩ := C116_contention_fails
  exact ((h Nat Nat arr (Array.new 2) 2 (· == 1) l s arr_readOnly arr_neverPanics hr).2 1 (.take 2)).1 hm

/-- The hypotheses of `C116_completes` are met: a client's first call on a new container. -/
example : ∃ l' s', plays arr (.new (Array.new 2) 2 (· == 1)) (roundTrip 1 (.push [(1, 7)])) =
    some (.asked 1 (.push [(1, 7)]) :: l' ++ [.got 1 (.push [(1, 7)]) (.push [])], s') ∧
    s'.seq.cont = ⟨2, 1, [(1, 7)]⟩ :=
  C116_completes arr_readOnly .nil (by simp) (by simp [Node.new, SState.new]) rfl _ rfl

end Byoc.ServeSeqProps
