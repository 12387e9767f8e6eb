import Verif.Model.ServeSeq
import Verif.Proofs.Sequential

/-!
# Proofs about a `Sequential` shared by server threads and local threads
-/

namespace Byoc.ServeSeq

open Byoc.Seq
open Byoc.Socket (Request Response accepts)

variable {K V S : Type} {C : Container K V}

/-- The steps on the shared container. -/
def innerOf : NEv K V → Option (Seq.SEv K V)
  | .inner e => some e
  | _ => none

def inners (l : List (NEv K V)) : List (Seq.SEv K V) := l.filterMap innerOf

theorem inners_snoc (l : List (NEv K V)) (e : NEv K V) :
    inners (l ++ [e]) = inners l ++ (innerOf e).toList := by
  simp only [inners, List.filterMap_append]
  cases h : innerOf e <;> simp [h]

def NEv.thread : NEv K V → Nat
  | .asked i _ | .got i _ _ | .mismatch i _ | .failed i _ => i
  | .inner e => e.thread

/-- Passing a lock, starting a call of the container, or returning from it. -/
def NEv.Bare : NEv K V → Prop
  | .inner (.silent _) | .inner (.called _ _) | .inner (.returned _ _ _) => True
  | _ => False

/-- Neither thread `i` nor its client does anything a client sees, nor changes the container. -/
def Still (i : Nat) (l : List (NEv K V)) : Prop := ∀ e ∈ l, e.thread = i → e.Bare

theorem Still.nil (i : Nat) : Still i ([] : List (NEv K V)) := by intro e he; simp at he

theorem Still.snoc {i : Nat} {l : List (NEv K V)} {e} (h : Still i l) (he : e.thread = i → e.Bare) :
    Still i (l ++ [e]) := by
  intro x hx
  rcases List.mem_append.1 hx with hx | hx
  · exact h x hx
  · simp at hx; subst hx; exact he

/-- The client of thread `i` made the call `r`, and nothing came of it yet. -/
def Asked (l : List (NEv K V)) (i : Nat) (r : Request K V) : Prop :=
  ∃ a b, l = a ++ .asked i r :: b ∧ Still i b

/-- The client of thread `i` made the call `r`, then the event `e` came, and nothing else. -/
def Done (l : List (NEv K V)) (i : Nat) (r : Request K V) (e : Seq.SEv K V) : Prop :=
  ∃ a b d, l = a ++ .asked i r :: b ++ .inner e :: d ∧ Still i b ∧ Still i d

theorem Asked.snoc {l : List (NEv K V)} {i r e} (h : Asked l i r) (he : e.thread = i → e.Bare) :
    Asked (l ++ [e]) i r := by
  obtain ⟨a, b, rfl, hb⟩ := h
  exact ⟨a, b ++ [e], by simp, hb.snoc he⟩

theorem Done.snoc {l : List (NEv K V)} {i r x e} (h : Done l i r x) (he : e.thread = i → e.Bare) :
    Done (l ++ [e]) i r x := by
  obtain ⟨a, b, d, rfl, hb, hd⟩ := h
  exact ⟨a, b, d ++ [e], by simp, hb, hd.snoc he⟩

theorem Asked.done {l : List (NEv K V)} {i r} (e) (h : Asked l i r) : Done (l ++ [.inner e]) i r e := by
  obtain ⟨a, b, rfl, hb⟩ := h
  exact ⟨a, b, [], by simp, hb, .nil i⟩

/-- What the events say about a thread that answers `r`. -/
def Answers (l : List (NEv K V)) (i : Nat) (r : Request K V) : Pc K V S → Prop
  | .start c | .locked c | .inside c _ => c = callOf r ∧ Asked l i r
  | .leaving c o | .closing c o => c = callOf r ∧ Done l i r (.executed i c o) ∧
      ∃ x, respOf r o = some x
  | _ => False

/-- What the events say about the other end of thread `i`, which is at `p`. -/
def Says (l : List (NEv K V)) (i : Nat) (p : Pc K V S) : End K V → Prop
  | .quiet => p = .idle
  | .sent r => p = .idle ∧ Asked l i r
  | .busy r => Answers l i r p
  | .back r x => p = .idle ∧ ∃ o, respOf r o = some x ∧
      (Done l i r (.executed i (callOf r) o) ∨ Done l i r (.skipped i (callOf r) o))
  | .lost r => Done l i r (.panicked i (callOf r))
  | _ => True

theorem Answers.snoc {l : List (NEv K V)} {i r e} {p : Pc K V S} (h : Answers l i r p)
    (he : e.thread = i → e.Bare) : Answers (l ++ [e]) i r p := by
  cases p with
  | start c => exact ⟨h.1, h.2.snoc he⟩
  | locked c => exact ⟨h.1, h.2.snoc he⟩
  | inside c _ => exact ⟨h.1, h.2.snoc he⟩
  | leaving c o => exact ⟨h.1, h.2.1.snoc he, h.2.2⟩
  | closing c o => exact ⟨h.1, h.2.1.snoc he, h.2.2⟩
  | idle => exact h
  | cell _ => exact h
  | dead _ => exact h

theorem Says.snoc {l : List (NEv K V)} {i e} {p : Pc K V S} {x : End K V} (h : Says l i p x)
    (he : e.thread = i → e.Bare) : Says (l ++ [e]) i p x := by
  cases x with
  | sent r => exact ⟨h.1, h.2.snoc he⟩
  | busy r => exact Answers.snoc h he
  | back r x =>
    obtain ⟨h0, o, h1, h2⟩ := h
    exact ⟨h0, o, h1, h2.imp (·.snoc he) (·.snoc he)⟩
  | lost r => exact Done.snoc h he
  | here => trivial
  | quiet => exact h
  | gone => trivial

theorem sstep_shape {s s' : SState K V C.block.State} {i a e} (h : sstep C s i a = some (s', e)) :
    e.thread = i ∧ ∃ p q, s.threads[i]? = some p ∧ s'.threads = s.threads.set i q := by
  simp only [sstep] at h
  split at h
  all_goals (try (simp at h; done))
  all_goals rename_i hp
  all_goals repeat' split at h
  all_goals simp only [Option.some.injEq, Prod.mk.injEq, reduceCtorEq] at h
  all_goals obtain ⟨rfl, rfl⟩ := h
  all_goals refine ⟨rfl, _, _, hp, by simp only [SState.setPc, acquire_threads, release_threads, dropGuard_threads]; rfl⟩

/-- A call made for a request returns a result for this request. -/
theorem respOf_exec {r : Request K V} {s t : C.block.State} {o} (h : C.exec (callOf r) s = .ok (o, t)) :
    ∃ x, respOf r o = some x := by
  cases r with
  | capacity => simp [callOf, Container.exec] at h; obtain ⟨rfl, -⟩ := h; exact ⟨_, rfl⟩
  | size => simp [callOf, Container.exec] at h; obtain ⟨rfl, -⟩ := h; exact ⟨_, rfl⟩
  | contains k =>
    simp only [callOf, Container.exec, Block.observe] at h
    cases h1 : C.block.contains s k with
    | panic => rw [h1] at h; simp at h
    | ok y => rw [h1] at h; simp at h; obtain ⟨rfl, -⟩ := h; exact ⟨_, rfl⟩
  | take k =>
    simp only [callOf, Container.exec, Block.observe] at h
    cases h1 : C.block.take s k with
    | panic => rw [h1] at h; simp at h
    | ok y => rw [h1] at h; simp at h; obtain ⟨rfl, -⟩ := h; exact ⟨_, rfl⟩
  | takeMultiple ks =>
    simp only [callOf, Container.exec, Block.observe] at h
    cases h1 : C.block.takeMultiple s ks with
    | panic => rw [h1] at h; simp at h
    | ok y => rw [h1] at h; simp at h; obtain ⟨rfl, -⟩ := h; exact ⟨_, rfl⟩
  | pop n =>
    simp only [callOf, Container.exec, Block.observe] at h
    cases h1 : C.block.pop s n with
    | panic => rw [h1] at h; simp at h
    | ok y => rw [h1] at h; simp at h; obtain ⟨rfl, -⟩ := h; exact ⟨_, rfl⟩
  | push l =>
    simp only [callOf, Container.exec, Block.observe] at h
    cases h1 : C.block.push s l with
    | panic => rw [h1] at h; simp at h
    | ok y => rw [h1] at h; simp at h; obtain ⟨rfl, -⟩ := h; exact ⟨_, rfl⟩
  | flush =>
    simp only [callOf, Container.exec, Block.observe] at h
    cases h1 : C.block.flush s with
    | panic => rw [h1] at h; simp at h
    | ok y => rw [h1] at h; simp at h; obtain ⟨rfl, -⟩ := h; exact ⟨_, rfl⟩

theorem respOf_poison {r : Request K V} {o} (h : (callOf r).onPoison = some o) :
    ∃ x, respOf r o = some x := by
  cases r <;> simp [callOf, SCall.onPoison] at h
  subst h; exact ⟨_, rfl⟩

theorem accepts_respOf {r : Request K V} {o x} (h : respOf r o = some x) : accepts r x = true := by
  cases r <;> rcases o with n | (_ | _ | _ | _) | v <;> simp [respOf] at h <;> subst h <;> rfl

theorem after_call (r : Request K V) (i c) : after r (.called i c) = .busy r := rfl

theorem set_other {α : Type} (l : List α) (i j : Nat) (a : α) (h : j ≠ i) : (l.set i a)[j]? = l[j]? :=
  List.getElem?_set_ne (Ne.symm h)

theorem set_self {α : Type} {l : List α} {i : Nat} {a x y : α} (h : l[i]? = some y)
    (hx : (l.set i a)[i]? = some x) : x = a := by
  rw [List.getElem?_set_self (List.getElem?_eq_some_iff.1 h).1] at hx
  simpa using hx.symm

theorem says_skipped {l : List (NEv K V)} {i r c o} (hc : c = callOf r)
    (h : Asked l i r) (ho : SCall.onPoison c = some o) :
    Says (S := S) (l ++ [.inner (.skipped i c o)]) i .idle (after r (.skipped i c o)) := by
  subst hc
  obtain ⟨x, hx⟩ := respOf_poison ho
  simp only [after, hx]
  exact ⟨rfl, o, hx, .inr (h.done _)⟩

theorem says_panicked {l : List (NEv K V)} {i r c} {p : Pc K V S} (hc : c = callOf r)
    (h : Asked l i r) : Says (l ++ [.inner (.panicked i c)]) i p (after r (.panicked i c)) := by
  subst hc
  exact h.done _

theorem says_returned {l : List (NEv K V)} {i r c o} (hc : c = callOf r)
    (h : Done l i r (.executed i c o)) (hx : ∃ x, respOf r o = some x) :
    Says (S := S) (l ++ [.inner (.returned i c o)]) i .idle (after r (.returned i c o)) := by
  subst hc
  obtain ⟨x, hx⟩ := hx
  simp only [after, hx]
  exact ⟨rfl, o, hx, .inl (h.snoc (fun _ => trivial))⟩

/-- A server thread makes the call of a request. -/
theorem answers_call {s s' : SState K V C.block.State} {i e} {l : List (NEv K V)} {r} {p q}
    (hp : s.threads[i]? = some p) (h : Asked l i r) {a : SAct K V} (ha : a = .call (callOf r))
    (hs : sstep C s i a = some (s', e)) (hq : s'.threads[i]? = some q) :
    Answers (l ++ [.inner e]) i r q := by
  simp only [sstep] at hs
  split at hs
  all_goals (try (simp at hs; done))
  all_goals (try (cases ha; done))
  simp only [Option.some.injEq, Prod.mk.injEq] at hs
  obtain ⟨rfl, rfl⟩ := hs
  obtain rfl := set_self hp hq
  cases ha
  exact ⟨rfl, h.snoc (fun _ => trivial)⟩

theorem unwind_event {s s' : SState K V C.block.State} {i e} {a : SAct K V} (ha : a = .unwind)
    (hs : sstep C s i a = some (s', e)) : e = .silent i := by
  simp only [sstep] at hs
  split at hs
  all_goals (try (simp at hs; done))
  all_goals (try (cases ha; done))
  simp only [Option.some.injEq, Prod.mk.injEq] at hs
  exact hs.2.symm

/-- A server thread goes on. -/
theorem answers_go {s s' : SState K V C.block.State} {i e} {l : List (NEv K V)} {r} {p}
    (hp : s.threads[i]? = some p) (h : Answers l i r p) {a : SAct K V} (ha : a = .go)
    (hs : sstep C s i a = some (s', e)) :
    ∃ q, s'.threads[i]? = some q ∧ Says (l ++ [.inner e]) i q (after r e) := by
  have hlt : i < s.threads.length := by
    rcases List.getElem?_eq_some_iff.1 hp with ⟨h, -⟩; exact h
  have hb : ∀ {j : Nat}, (NEv.inner (.silent j) : NEv K V).Bare := trivial
  simp only [sstep] at hs
  split at hs
  all_goals (try (simp at hs; done))
  all_goals (try (cases ha; done))
  all_goals rename_i hp'
  all_goals (rw [hp] at hp'; simp only [Option.some.injEq] at hp'; subst hp')
  all_goals simp only [Answers] at h
  all_goals repeat' split at hs
  all_goals simp only [Option.some.injEq, Prod.mk.injEq, reduceCtorEq] at hs
  all_goals obtain ⟨rfl, rfl⟩ := hs
  all_goals refine ⟨_, by simp only [SState.setPc, acquire_threads, release_threads, dropGuard_threads]; rw [List.getElem?_set_self hlt], ?_⟩
  all_goals first
    | exact says_skipped h.1 h.2 (by assumption)
    | exact says_panicked h.1 h.2
    | exact ⟨h.1, h.2.snoc (fun _ => trivial)⟩
    | exact ⟨h.1, h.2.done _, respOf_exec (by rw [← h.1]; assumption)⟩
    | exact ⟨h.1, h.2.1.snoc (fun _ => trivial), h.2.2⟩
    | exact says_returned h.1 h.2.1 h.2.2
    | exact absurd h.1 (by cases r <;> simp [callOf])

/-- The invariant. -/
def Coherent (l : List (NEv K V)) (s : Node K V S) : Prop :=
  ∀ (j : Nat) (p : Pc K V S) (x : End K V), s.seq.threads[j]? = some p → s.ends[j]? = some x → Says l j p x

theorem new_coherent (c : S) (n : Nat) (remote : Nat → Bool) :
    Coherent [] (Node.new (K := K) (V := V) c n remote) := by
  intro j p x hp hx
  simp only [Node.new, List.getElem?_map, Option.map_eq_some_iff] at hx
  obtain ⟨m, -, rfl⟩ := hx
  simp only [Node.new, SState.new, List.getElem?_replicate] at hp
  split at hp
  · simp at hp; subst hp; split
    · rfl
    · trivial
  · simp at hp

/-- Only thread `i` and its end change. -/
theorem Coherent.change {l : List (NEv K V)} {s s' : Node K V S} {i : Nat} {e : NEv K V}
    (h : Coherent l s) (he : e.thread = i)
    (ht : ∀ j, j ≠ i → s'.seq.threads[j]? = s.seq.threads[j]?)
    (hx : ∀ j, j ≠ i → s'.ends[j]? = s.ends[j]?)
    (hi : ∀ p x, s'.seq.threads[i]? = some p → s'.ends[i]? = some x → Says (l ++ [e]) i p x) :
    Coherent (l ++ [e]) s' := by
  intro j p x hp hx'
  by_cases hj : j = i
  · subst hj; exact hi p x hp hx'
  · rw [ht j hj] at hp
    rw [hx j hj] at hx'
    exact (h j p x hp hx').snoc (fun hh => absurd (hh.symm.trans he) (by simpa using hj))

theorem nstep_coherent {s s' : Node K V C.block.State} {i a e} {l : List (NEv K V)}
    (hc : Coherent l s) (h : nstep C s i a = some (s', e)) : Coherent (l ++ [e]) s' := by
  simp only [nstep] at h
  split at h
  all_goals (try (simp at h; done))
  all_goals rename_i hx
  all_goals repeat' split at h
  all_goals simp only [Option.some.injEq, Prod.mk.injEq, reduceCtorEq] at h
  all_goals obtain ⟨rfl, rfl⟩ := h
  · -- a local thread
    rename_i q e hs
    obtain ⟨h1, p, p', h2, h3⟩ := sstep_shape hs
    refine hc.change h1 (fun j hj => by rw [h3, set_other _ _ _ _ hj]) (fun j hj => rfl) ?_
    intro p x _ hx'
    rw [show s.ends[i]? = some End.here from hx] at hx'
    simp only [Option.some.injEq] at hx'; subst hx'; trivial
  · -- ask
    rename_i r
    refine hc.change rfl (fun j hj => rfl) (fun j hj => set_other _ _ _ _ hj) ?_
    intro p x _ hx'
    obtain rfl := set_self hx hx'
    exact ⟨hc i p _ (by assumption) hx, l, [], rfl, .nil i⟩
  · -- serve
    rename_i r q e hs
    obtain ⟨h1, p, p', h2, h3⟩ := sstep_shape hs
    refine hc.change h1 (fun j hj => by
      show q.threads[j]? = _
      rw [h3, set_other _ _ _ _ hj]) (fun j hj => set_other _ _ _ _ hj) ?_
    intro p1 x hp1 hx'
    obtain rfl := set_self hx hx'
    exact answers_call h2 (hc i p _ h2 hx).2 rfl hs hp1
  · -- go
    rename_i r q e hs
    obtain ⟨h1, p, p', h2, h3⟩ := sstep_shape hs
    refine hc.change h1 (fun j hj => by
      show q.threads[j]? = _
      rw [h3, set_other _ _ _ _ hj]) (fun j hj => set_other _ _ _ _ hj) ?_
    intro p1 x hp1 hx'
    obtain rfl := set_self hx hx'
    obtain ⟨q1, hq1, h4⟩ := answers_go h2 (hc i p _ h2 hx) rfl hs
    replace hp1 : q.threads[i]? = some p1 := hp1
    rw [hq1] at hp1
    simp only [Option.some.injEq] at hp1; subst hp1
    exact h4
  · -- deliver
    refine hc.change rfl (fun j hj => rfl) (fun j hj => set_other _ _ _ _ hj) ?_
    intro p x hp hx'
    obtain rfl := set_self hx hx'
    exact (hc i p _ hp hx).1
  · refine hc.change rfl (fun j hj => rfl) (fun j hj => set_other _ _ _ _ hj) ?_
    intro p x _ hx'
    obtain rfl := set_self hx hx'
    trivial
  · refine hc.change rfl (fun j hj => rfl) (fun j hj => set_other _ _ _ _ hj) ?_
    intro p x _ hx'
    obtain rfl := set_self hx hx'
    trivial
  · -- unwind
    rename_i r q e hs
    obtain ⟨h1, p, p', h2, h3⟩ := sstep_shape hs
    refine hc.change h1 (fun j hj => by
      show q.threads[j]? = _
      rw [h3, set_other _ _ _ _ hj]) (fun j hj => rfl) ?_
    intro p1 x hp1 hx'
    replace hx' : s.ends[i]? = some x := hx'
    have h4 := hc i p _ h2 hx
    rw [hx] at hx'
    simp only [Option.some.injEq] at hx'; subst hx'
    rw [unwind_event rfl hs]
    exact Done.snoc h4 (fun _ => trivial)
  · rename_i q e hs
    obtain ⟨h1, p, p', h2, h3⟩ := sstep_shape hs
    refine hc.change h1 (fun j hj => by
      show q.threads[j]? = _
      rw [h3, set_other _ _ _ _ hj]) (fun j hj => rfl) ?_
    intro p1 x hp1 hx'
    rw [show s.ends[i]? = some End.gone from hx] at hx'
    simp only [Option.some.injEq] at hx'; subst hx'; trivial

/-- The steps on the shared container are an execution of the threads of the `Sequential`. -/
theorem nstep_inner {s s' : Node K V C.block.State} {i a e} {s₀ : SState K V C.block.State}
    {l : List (Seq.SEv K V)} (hr : SRun C s₀ l s.seq) (h : nstep C s i a = some (s', e)) :
    SRun C s₀ (l ++ (innerOf e).toList) s'.seq := by
  simp only [nstep] at h
  split at h
  all_goals (try (simp at h; done))
  all_goals repeat' split at h
  all_goals simp only [Option.some.injEq, Prod.mk.injEq, reduceCtorEq] at h
  all_goals obtain ⟨rfl, rfl⟩ := h
  all_goals first
    | exact hr.snoc (by assumption)
    | (simpa [innerOf, Node.setEnd] using hr)

theorem NRun.inner {s₀ s : Node K V C.block.State} {l} (h : NRun C s₀ l s) :
    SRun C s₀.seq (inners l) s.seq := by
  induction h with
  | nil => exact .nil
  | snoc _ hs ih => rw [inners_snoc]; exact nstep_inner ih hs

theorem NRun.coherent {s₀ s : Node K V C.block.State} {l} (h : NRun C s₀ l s) (h0 : Coherent [] s₀) :
    Coherent l s := by
  induction h with
  | nil => exact h0
  | snoc _ hs ih => exact nstep_coherent ih hs

theorem nstep_length {s s' : Node K V C.block.State} {i a e} (h : nstep C s i a = some (s', e)) :
    s'.ends.length = s.ends.length ∧ s'.seq.threads.length = s.seq.threads.length := by
  simp only [nstep] at h
  split at h
  all_goals (try (simp at h; done))
  all_goals repeat' split at h
  all_goals simp only [Option.some.injEq, Prod.mk.injEq, reduceCtorEq] at h
  all_goals obtain ⟨rfl, rfl⟩ := h
  all_goals first
    | (simp [Node.setEnd]; done)
    | (rename_i hs
       obtain ⟨-, p, p', -, h3⟩ := sstep_shape hs
       simp [Node.setEnd, h3])

theorem NRun.thread {s₀ : C.block.State} {n remote} {s : Node K V C.block.State} {l}
    (h : NRun C (.new s₀ n remote) l s) {i : Nat} {x} (hx : s.ends[i]? = some x) :
    ∃ p, s.seq.threads[i]? = some p := by
  have : s.ends.length = n ∧ s.seq.threads.length = n := by
    clear hx
    induction h with
    | nil => simp [Node.new, SState.new]
    | snoc _ hs ih => have := nstep_length hs; omega
  have hi := (List.getElem?_eq_some_iff.1 hx).1
  exact ⟨s.seq.threads[i]'(by omega), List.getElem?_eq_getElem _⟩

/-- Every event, looked at in its past. -/
theorem NRun.event {s₀ s : Node K V C.block.State} {l} (h : NRun C s₀ l s) :
    ∀ l1 e l2, l = l1 ++ e :: l2 → ∃ s1 s2 i a, NRun C s₀ l1 s1 ∧ nstep C s1 i a = some (s2, e) := by
  induction h with
  | nil => intro l1 e l2 h; simp at h
  | snoc hr hs ih =>
    rename_i l s s' i a e
    intro l1 e' l2 hl
    rcases List.eq_nil_or_concat l2 with rfl | ⟨l3, x, rfl⟩
    · obtain ⟨rfl, h2⟩ := List.append_inj' hl rfl
      simp only [List.cons.injEq, and_true] at h2
      subst h2
      exact ⟨_, _, _, _, hr, hs⟩
    · have hl' : l ++ [e] = (l1 ++ e' :: l3) ++ [x] := by simpa using hl
      obtain ⟨rfl, -⟩ := List.append_inj' hl' rfl
      exact ih l1 e' l3 rfl

end Byoc.ServeSeq
