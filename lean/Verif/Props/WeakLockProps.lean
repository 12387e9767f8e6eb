import Verif.Proofs.WeakLock

/-! # C99: `RWLock` with the memory orderings of the source -/

namespace Byoc.WeakLockProps

open Lock (Mode EXCLUSIVE)
open WeakLock

/-- **C99.** Whatever the threads do, with stale reads, spurious failures, panics and lost locks: two accesses to
the data protected by the lock, by different threads, one of them a write, are ordered by happens before. -/
theorem C99_race_free {n : Nat} {l : List (Nat × Mem)} {s : State} (h : Run (init n) l s) : RaceFree l := by
  obtain ⟨w, hi⟩ := h.inv
  intro p q i j e e' hp hq hij hc
  rcases Nat.lt_trichotomy p q with hpq | rfl | hpq
  · exact .inl (hi.order p q i j e e' hpq hp hq hij hc)
  · rw [hp] at hq
    simp only [Option.some.injEq, Prod.mk.injEq] at hq
    exact (hij hq.1).elim
  · refine .inr (hi.order q p j i e' e hpq hq hp (Ne.symm hij) ?_)
    cases e <;> cases e' <;> simp_all [Conflict]

/-- **C99 (direction).** … and the one that comes first in the run happens before the other. -/
theorem C99_in_order {n : Nat} {l : List (Nat × Mem)} {s : State} (h : Run (init n) l s) (p q i j : Nat) (e e' : Mem)
    (hpq : p < q) (hp : l[p]? = some (i, e)) (hq : l[q]? = some (j, e')) (hij : i ≠ j) (hc : Conflict e e') :
    Hb l p q := by
  obtain ⟨w, hi⟩ := h.inv
  exact hi.order p q i j e e' hpq hp hq hij hc

/-- **C99 (mutual exclusion on weak memory).** While a thread has exclusive access no other thread has any. -/
theorem C99_mutual_exclusion {n : Nat} {l : List (Nat × Mem)} {s : State} (h : Run (init n) l s) {i j : Nat} {t u : Th}
    (hij : i ≠ j) (ht : s.threads[i]? = some t) (hu : s.threads[j]? = some u) (hw : t.writer = true) :
    u.writer = false ∧ u.readers = 0 := by
  obtain ⟨w, hi⟩ := h.inv
  exact hi.exclusive hij ht hu hw

/-! ## What is sequentially consistent is also possible here -/

/-- The same state, the word being its last value, all threads possibly knowing less. -/
def Same (s : State) (s₀ : Lock.State) : Prop :=
  s.hist.getLast? = some s₀.word ∧ s.threads.map Th.toTh = s₀.threads ∧ ∀ t ∈ s.threads, t.coh < s.hist.length

theorem cas_last {hist : List Nat} {w coh old new : Nat} {ok err : Order} {sp : Bool}
    (hl : hist.getLast? = some w) (hc : coh < hist.length) :
    ∃ hist' coh' e, cas hist coh old new ok err sp (hist.length - 1) =
      some (w, (Lock.casWeak w old new sp).1, hist', coh', e) ∧
      hist'.getLast? = some (Lock.casWeak w old new sp).2 ∧ coh' < hist'.length ∧ hist.length ≤ hist'.length := by
  have hw : hist[hist.length - 1]? = some w := by rw [← List.getLast?_eq_getElem?]; exact hl
  unfold cas Lock.casWeak
  by_cases h : w = old ∧ sp = false
  · obtain ⟨rfl, rfl⟩ := h
    refine ⟨hist ++ [new], hist.length, .rmw (hist.length - 1) ok, ?_, ?_, ?_, ?_⟩
    · rw [if_pos ⟨hl, rfl⟩]; simp
    · simp
    · simp
    · simp
  · have h' : ¬ (hist.getLast? = some old ∧ sp = false) := by
      rw [hl]; simpa using h
    refine ⟨hist, hist.length - 1, .load (hist.length - 1) err, ?_, ?_, ?_, Nat.le_refl _⟩
    · rw [if_neg h', if_pos (by omega), hw]; simp [h]
    · simp [h, hl]
    · omega

theorem step_last {hist : List Nat} {w w' : Nat} {t : Th} {t₀ : Lock.Th} {a e} (hl : hist.getLast? = some w)
    (hc : t.coh < hist.length) (h : Lock.stepTh w t.toTh a = some (w', t₀, e)) :
    ∃ b hist' t' e', stepTh hist t b = some (hist', t', e') ∧ hist'.getLast? = some w' ∧ t'.toTh = t₀ ∧
      t'.coh < hist'.length ∧ hist.length ≤ hist'.length := by
  have hw : hist[hist.length - 1]? = some w := by rw [← List.getLast?_eq_getElem?]; exact hl
  have hle : t.coh ≤ hist.length - 1 := by omega
  obtain ⟨⟨pc, rd, wr⟩, coh⟩ := t
  cases a with
  | acquire m wait =>
    simp only [Lock.stepTh, Option.ite_none_right_eq_some, Option.some.injEq, Prod.mk.injEq] at h
    obtain ⟨h0, rfl, rfl, rfl⟩ := h
    exact ⟨.acquire m wait, hist, ⟨⟨.load m wait, rd, wr⟩, coh⟩, .none, by simp only [stepTh]; rw [if_pos h0], hl, rfl, hc, Nat.le_refl _⟩
  | release =>
    simp only [Lock.stepTh, Option.ite_none_right_eq_some] at h
    obtain ⟨h0, h⟩ := h
    split at h
    · rename_i h1
      simp only [Option.some.injEq, Prod.mk.injEq] at h
      obtain ⟨rfl, rfl, rfl⟩ := h
      exact ⟨.release, hist, ⟨⟨.unlock .excl, rd, false⟩, coh⟩, .none, by simp only [stepTh]; rw [if_pos h0, if_pos h1], hl, rfl, hc, Nat.le_refl _⟩
    · rename_i h1
      split at h
      · rename_i h2
        simp only [Option.some.injEq, Prod.mk.injEq] at h
        obtain ⟨rfl, rfl, rfl⟩ := h
        exact ⟨.release, hist, ⟨⟨.unlock .shared, rd - 1, wr⟩, coh⟩, .none, by simp only [stepTh]; rw [if_pos h0, if_neg h1, if_pos h2], hl, rfl, hc, Nat.le_refl _⟩
      · simp at h
  | panicDrop =>
    simp only [Lock.stepTh, Option.ite_none_right_eq_some, Option.some.injEq, Prod.mk.injEq] at h
    obtain ⟨h0, rfl, rfl, rfl⟩ := h
    exact ⟨.panicDrop, _, _, _, by simp only [stepTh]; rw [if_pos h0, hl]; rfl, by simp, rfl, by simp, by simp⟩
  | run sp =>
    cases pc with
    | idle => simp [Lock.stepTh] at h
    | load m wait =>
      refine ⟨.run sp (hist.length - 1), hist, _, _, by simp only [stepTh]; rw [if_pos hle, hw]; rfl, ?_⟩
      simp only [Lock.stepTh] at h
      split at h
      · rename_i h1
        simp only [Option.some.injEq, Prod.mk.injEq] at h
        obtain ⟨rfl, rfl, rfl⟩ := h
        exact ⟨hl, by rw [if_pos h1], by show hist.length - 1 < _; omega, Nat.le_refl _⟩
      · rename_i h1
        split at h
        · rename_i h2
          cases wait <;> simp only [Bool.false_eq_true, if_true, if_false, Option.some.injEq, Prod.mk.injEq] at h <;>
          · obtain ⟨rfl, rfl, rfl⟩ := h
            exact ⟨hl, by rw [if_neg h1, if_pos h2]; rfl, by show hist.length - 1 < _; omega, Nat.le_refl _⟩
        · rename_i h2
          simp only [Option.some.injEq, Prod.mk.injEq] at h
          obtain ⟨rfl, rfl, rfl⟩ := h
          exact ⟨hl, by rw [if_neg h1, if_neg h2], by show hist.length - 1 < _; omega, Nat.le_refl _⟩
    | cas m wait count =>
      cases m with
      | shared =>
        obtain ⟨hist', coh', e', g1, g2, g3, g4⟩ := cas_last (old := count) (new := count + 1) (ok := .seqCst)
          (err := .relaxed) (sp := sp) hl hc
        simp only [Lock.stepTh] at h
        cases hb : (Lock.casWeak w count (count + 1) sp).1 <;> simp only [hb, Bool.false_eq_true, if_true, if_false] at h g1
        · refine ⟨.run sp (hist.length - 1), hist', ⟨⟨if wait then .load .shared wait else .idle, rd, wr⟩, coh'⟩, e',
            by simp only [stepTh]; rw [g1]; rfl, ?_⟩
          cases wait <;> simp only [Bool.false_eq_true, if_true, if_false, Option.some.injEq, Prod.mk.injEq] at h <;>
          · obtain ⟨rfl, rfl, rfl⟩ := h
            exact ⟨g2, rfl, g3, g4⟩
        · refine ⟨.run sp (hist.length - 1), hist', ⟨⟨.idle, rd + 1, wr⟩, coh'⟩, e', by simp only [stepTh]; rw [g1]; rfl, ?_⟩
          simp only [Option.some.injEq, Prod.mk.injEq] at h
          obtain ⟨rfl, rfl, rfl⟩ := h
          exact ⟨g2, rfl, g3, g4⟩
      | excl =>
        obtain ⟨hist', coh', e', g1, g2, g3, g4⟩ := cas_last (old := 0) (new := EXCLUSIVE) (ok := .seqCst)
          (err := .relaxed) (sp := sp) hl hc
        simp only [Lock.stepTh] at h
        cases hb : (Lock.casWeak w 0 EXCLUSIVE sp).1 <;> simp only [hb, Bool.false_eq_true, if_true, if_false] at h g1
        · refine ⟨.run sp (hist.length - 1), hist', ⟨⟨if wait then .load .excl wait else .idle, rd, wr⟩, coh'⟩, e',
            by simp only [stepTh]; rw [g1]; rfl, ?_⟩
          cases wait <;> simp only [Bool.false_eq_true, if_true, if_false, Option.some.injEq, Prod.mk.injEq] at h <;>
          · obtain ⟨rfl, rfl, rfl⟩ := h
            exact ⟨g2, rfl, g3, g4⟩
        · refine ⟨.run sp (hist.length - 1), hist', ⟨⟨.idle, rd, true⟩, coh'⟩, e', by simp only [stepTh]; rw [g1]; rfl, ?_⟩
          simp only [Option.some.injEq, Prod.mk.injEq] at h
          obtain ⟨rfl, rfl, rfl⟩ := h
          exact ⟨g2, rfl, g3, g4⟩
    | unlock m =>
      obtain ⟨hist', coh', e', g1, g2, g3, g4⟩ := cas_last (old := EXCLUSIVE) (new := 0) (ok := .seqCst)
        (err := .seqCst) (sp := sp) hl hc
      refine ⟨.run sp (hist.length - 1), hist', _, e', by simp only [stepTh]; rw [g1]; rfl, ?_⟩
      simp only [Lock.stepTh, Option.some.injEq, Prod.mk.injEq] at h
      obtain ⟨rfl, rfl, rfl⟩ := h
      exact ⟨g2, rfl, g3, g4⟩
    | unlockLoop m count =>
      simp only [Lock.stepTh] at h
      by_cases hc0 : count = 0 ∨ count = EXCLUSIVE
      · rw [if_pos hc0] at h
        simp only [Option.some.injEq, Prod.mk.injEq] at h
        obtain ⟨rfl, rfl, rfl⟩ := h
        exact ⟨.run sp (hist.length - 1), hist, ⟨⟨.idle, rd, wr⟩, coh⟩, .none, by simp only [stepTh]; rw [if_pos hc0], hl, rfl, hc, Nat.le_refl _⟩
      · rw [if_neg hc0] at h
        obtain ⟨hist', coh', e', g1, g2, g3, g4⟩ := cas_last (old := count) (new := count - 1) (ok := .seqCst)
          (err := .relaxed) (sp := sp) hl hc
        refine ⟨.run sp (hist.length - 1), hist', _, e', by simp only [stepTh]; rw [if_neg hc0, g1]; rfl, ?_⟩
        cases hb : (Lock.casWeak w count (count - 1) sp).1 <;>
          simp only [hb, Bool.false_eq_true, if_true, if_false, Option.some.injEq, Prod.mk.injEq] at h ⊢ <;>
        · obtain ⟨rfl, rfl, rfl⟩ := h
          exact ⟨g2, rfl, g3, g4⟩

theorem step_same {s : State} {s₀ s₀' : Lock.State} {i a e} (h : Same s s₀)
    (hs : Lock.step s₀ i a = some (s₀', e)) : ∃ b s' e', step s i b = some (s', e') ∧ Same s' s₀' := by
  obtain ⟨t₀, w', t₀', ht, hst, rfl⟩ := Lock.step_eq hs
  obtain ⟨h1, h2, h3⟩ := h
  rw [← h2, List.getElem?_map, Option.map_eq_some_iff] at ht
  obtain ⟨t, ht, rfl⟩ := ht
  obtain ⟨b, hist', t', e', g1, g2, g3, g4, g5⟩ := step_last h1 (h3 t (List.mem_of_getElem? ht)) hst
  refine ⟨b, ⟨hist', s.threads.set i t'⟩, e', by simp only [step, ht, g1, Option.map_some], g2, ?_, ?_⟩
  · show (s.threads.set i t').map Th.toTh = s₀.threads.set i t₀'
    rw [List.map_set, h2, g3]
  · intro u hu
    rcases List.mem_or_eq_of_mem_set hu with hu | rfl
    · exact Nat.lt_of_lt_of_le (h3 u hu) g5
    · exact g4

/-- **C99 (nothing is left out).** Every run of the sequentially consistent model (C31, C32, C54) is a run here. -/
theorem C99_includes_sc {n : Nat} {l : List (Nat × Lock.Act × Lock.Ev)} {s₀ : Lock.State}
    (h : Lock.Run (Lock.init n) l s₀) : ∃ l' s, Run (init n) l' s ∧ Same s s₀ := by
  have key : ∀ (s₁ : Lock.State) l s₀, Lock.Run s₁ l s₀ → ∀ l₁ s, Run (init n) l₁ s → Same s s₁ →
      ∃ l' s', Run (init n) l' s' ∧ Same s' s₀ := by
    intro s₁ l s₀ h
    induction h with
    | nil s => exact fun l₁ s' hr hs => ⟨l₁, s', hr, hs⟩
    | cons h1 h2 _ ih =>
      intro l₁ s' hr hs
      obtain ⟨b, s'', e', g1, g2⟩ := step_same hs h1
      refine ih _ s'' (.snoc hr g1 ?_) g2
      have : ∀ u v, Same u v → u.sharedCount = v.sharedCount := by
        intro u v huv
        rw [Lock.State.sharedCount, ← huv.2.1]
        simp only [State.sharedCount, List.map_map]
        rfl
      rw [this _ _ g2]
      exact h2
  refine key _ l s₀ h [] (init n) .nil ⟨rfl, ?_, ?_⟩
  · simp [init, Lock.init]
  · intro t ht
    rw [(List.mem_replicate.1 ht).2]
    simp [init]

/-! ## The hypotheses can be met -/

/-- Run a list of actions. -/
def exec (s : State) : List (Nat × Act) → Option (List (Nat × Mem) × State)
  | [] => some ([], s)
  | (i, a) :: l =>
    match step s i a with
    | none => none
    | some (s', e) => if s'.sharedCount < 2 ^ 62 then (exec s' l).map fun r => ((i, e) :: r.1, r.2) else none

theorem exec_run {s₀ : State} : ∀ (acts : List (Nat × Act)) (s : State) (l₀ l : List (Nat × Mem)) (s' : State),
    Run s₀ l₀ s → exec s acts = some (l, s') → Run s₀ (l₀ ++ l) s'
  | [], s, l₀, l, s', hr, h => by
    simp only [exec, Option.some.injEq, Prod.mk.injEq] at h
    obtain ⟨rfl, rfl⟩ := h
    simpa using hr
  | (i, a) :: acts, s, l₀, l, s', hr, h => by
    simp only [exec] at h
    split at h
    · simp at h
    · rename_i s₁ e hs
      split at h
      · rename_i hb
        simp only [Option.map_eq_some_iff, Prod.mk.injEq] at h
        obtain ⟨⟨l₁, s₂⟩, h1, rfl, rfl⟩ := h
        have := exec_run acts s₁ _ l₁ s₂ (.snoc hr hs hb) h1
        simpa using this
      · simp at h

/-- Thread 0 writes and gives the lock back; thread 1, whose load returns a value from before, gets the lock at
the next attempt and reads. -/
def demo : List (Nat × Act) :=
  [(0, .acquire .excl true), (0, .run false 0), (0, .run false 0), (0, .dataWrite), (0, .release),
   (1, .acquire .shared true), (1, .run false 1),
   (0, .run false 0), (0, .run false 0),
   (1, .run false 1), (1, .run false 2), (1, .run false 2), (1, .dataRead)]

/-- The accesses of the two threads in `demo` are in its trace, and ordered. -/
example : ∃ l s, Run (init 2) l s ∧ l[3]? = some (0, .dataWrite) ∧ l[12]? = some (1, .dataRead) ∧ Hb l 3 12 := by
  obtain ⟨l, s, h, h3, h12⟩ : ∃ l s, exec (init 2) demo = some (l, s) ∧ l[3]? = some (0, .dataWrite) ∧
      l[12]? = some (1, .dataRead) := by
    refine ⟨_, _, rfl, ?_, ?_⟩ <;> decide
  have hr : Run (init 2) l s := exec_run demo (init 2) [] l s .nil h
  exact ⟨l, s, hr, h3, h12, C99_in_order hr 3 12 0 1 _ _ (by omega) h3 h12 (by decide) trivial⟩

end Byoc.WeakLockProps
