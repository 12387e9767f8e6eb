import Verif.Proofs.Lock

/-!
# C31, C32, C54: the read write lock

Statements are about runs (`Lock.Run`, Model/Lock.lean): any number of threads, any interleaving of
atomic steps, with or without spurious failures of `compare_exchange_weak` and with threads that panic.
What a thread holds (`Th.readers`, `Th.writer`) is bookkeeping of the user: it grows when a locking
method returns `Ok` and shrinks when `unlock` is called; the code never reads it.
-/

namespace Byoc.LockProps

open Lock

theorem excl_of_writer {t : Th} (h : t.writer = true) : 1 ≤ t.exclCount := by
  simp [Th.exclCount, h]

theorem shared_of_readers (t : Th) : t.readers ≤ t.sharedCount := by
  simp [Th.sharedCount]

/-- **C31** (mutual exclusion).  In every state any number of threads can reach, under every schedule,
while a thread holds the write lock no other thread holds the lock in any mode, and the writer itself
holds no shared access. -/
theorem C31_mutual_exclusion {n : Nat} {l : List (Nat × Act × Ev)} {s : State}
    (h : Run (init n) l s) {i : Nat} {t : Th} (ht : s.threads[i]? = some t)
    (hw : t.writer = true) :
    t.readers = 0 ∧ ∀ (j : Nat) (u : Th), j ≠ i → s.threads[j]? = some u → ¬ u.holds := by
  have hinv := h.inv (init_inv n)
  have h1 := excl_of_writer hw
  have hx := le_sum Th.exclCount s.threads t (List.mem_of_getElem? ht)
  have hword := hinv.word.2
  simp only [State.exclCount, State.sharedCount] at hword
  refine ⟨?_, ?_⟩
  · have := le_sum Th.sharedCount s.threads t (List.mem_of_getElem? ht)
    have := shared_of_readers t
    omega
  · intro j u hj hu
    have h2 := le_sum_two Th.exclCount s.threads i j t u (Ne.symm hj) ht hu
    have h3 := le_sum Th.sharedCount s.threads u (List.mem_of_getElem? hu)
    have h4 := shared_of_readers u
    rintro (hc | hc)
    · have := excl_of_writer hc
      omega
    · omega

/-- All threads are outside of the lock's methods. -/
def Quiet (s : State) : Prop := ∀ t ∈ s.threads, t.pc = .idle

/-- The number of shared accesses held by all threads together. -/
def sharedHolds (s : State) : Nat := (s.threads.map Th.readers).sum

theorem sharedHolds_quiet {s : State} (h : Quiet s) : s.sharedCount = sharedHolds s := by
  unfold State.sharedCount sharedHolds
  congr 1
  apply List.map_congr_left
  intro t ht
  simp [Th.sharedCount, h t ht]

/-- **C31** (the count is exact).  Whenever no call is in progress and no thread panicked, the word of
the lock is the number of shared accesses held, or says that the lock is taken exclusively, in which
case no shared access is held. -/
theorem C31_count {n : Nat} {l : List (Nat × Act × Ev)} {s : State}
    (h : Run (init n) l s) (hq : Quiet s) (hp : ∀ x ∈ l, x.2.2 ≠ Ev.poison) :
    s.word = sharedHolds s ∨ (s.word = EXCLUSIVE ∧ sharedHolds s = 0) := by
  have hinv := h.inv (init_inv n)
  have hlow : s.word < 2 ^ 63 := h.low (init_inv n) (by simp [init]) hp
  have hw := hinv.word.2
  rw [sharedHolds_quiet hq] at hw
  have := hE
  omega

/-- Call `try_lock`/`try_lock_mut` from thread `i` and run it to its end without interruption. -/
def tryNow (s : State) (i : Nat) (m : Mode) : Option (State × Ev) := do
  let (s, _) ← step s i (.acquire m false)
  let (s, e) ← step s i (.run false)
  if e = .silent then step s i (.run false) else some (s, e)

/-- The outcome of an undisturbed attempt, as a function of the word. -/
theorem tryNow_eq {s : State} {i : Nat} {t : Th} (ht : s.threads[i]? = some t) (hi : t.pc = .idle)
    (m : Mode) : (tryNow s i m).map Prod.snd = some (
      if s.word &&& POISONED ≠ 0 then Ev.poisoned
      else if s.word &&& EXCLUSIVE ≠ 0 then Ev.wouldBlock
      else match m with
        | .shared => Ev.acquired .shared
        | .excl => if s.word = 0 then Ev.acquired .excl else Ev.wouldBlock) := by
  obtain ⟨w, th⟩ := s
  obtain ⟨pc, rd, wr⟩ := t
  simp only at ht hi
  subst hi
  have hlen : i < th.length := (List.getElem?_eq_some_iff.1 ht).1
  simp only [tryNow, step, ht, stepTh, Option.map_some, Option.bind_eq_bind, Option.bind_some,
    List.getElem?_set_self hlen, if_true]
  by_cases h1 : w &&& POISONED ≠ 0
  · simp [h1]
  · simp only [if_neg h1]
    by_cases h2 : w &&& EXCLUSIVE ≠ 0
    · simp [h2]
    · simp only [if_neg h2]
      cases m with
      | shared => simp [casWeak, hlen]
      | excl =>
        by_cases h3 : w = 0
        · simp [casWeak, hlen, h3]
        · simp [casWeak, hlen, h3]

/-- No spurious failure of `compare_exchange_weak` and no panic happened (as on x86, where
`compare_exchange_weak` does not fail spuriously). -/
def NoAccident (l : List (Nat × Act × Ev)) : Prop := ∀ x ∈ l, x.2.1.clean = true

theorem exists_pos {f : Th → Nat} : ∀ {l : List Th}, 0 < (l.map f).sum → ∃ t ∈ l, 0 < f t
  | [], h => by simp at h
  | a :: l, h => by
    simp only [List.map_cons, List.sum_cons] at h
    by_cases ha : 0 < f a
    · exact ⟨a, by simp, ha⟩
    · obtain ⟨t, ht, h'⟩ := exists_pos (f := f) (l := l) (by omega)
      exact ⟨t, by simp [ht], h'⟩

theorem exclCount_quiet {s : State} (h : Quiet s) :
    s.exclCount = 0 ↔ ∀ t ∈ s.threads, t.writer = false := by
  constructor
  · intro h0 t ht
    have := le_sum Th.exclCount s.threads t ht
    rw [State.exclCount] at h0
    by_contra hc
    have := excl_of_writer (t := t) (by simpa using hc)
    omega
  · intro hall
    by_contra hc
    obtain ⟨t, ht, hpos⟩ := exists_pos (f := Th.exclCount) (l := s.threads)
      (by unfold State.exclCount at hc; omega)
    simp [Th.exclCount, hall t ht, h t ht] at hpos

theorem sharedHolds_zero {s : State} : sharedHolds s = 0 ↔ ∀ t ∈ s.threads, t.readers = 0 := by
  constructor
  · intro h0 t ht
    have := le_sum Th.readers s.threads t ht
    unfold sharedHolds at h0
    omega
  · intro hall
    by_contra hc
    obtain ⟨t, ht, hpos⟩ := exists_pos (f := Th.readers) (l := s.threads)
      (by unfold sharedHolds at hc; omega)
    have := hall t ht
    omega

/-- **C31** (nobody is refused without reason).  Without accidents, when no call is in progress,
`try_lock_mut` succeeds if and only if no thread holds the lock, and `try_lock` succeeds if and only if
no thread holds it exclusively; otherwise they return `WouldBlock`. -/
theorem C31_exact {n : Nat} {l : List (Nat × Act × Ev)} {s : State}
    (h : Run (init n) l s) (hq : Quiet s) (hl : NoAccident l) {i : Nat} (hi : i < n) :
    ((tryNow s i .excl).map Prod.snd = some (.acquired .excl) ↔ ∀ t ∈ s.threads, ¬ t.holds) ∧
    ((tryNow s i .shared).map Prod.snd = some (.acquired .shared) ↔
      ∀ t ∈ s.threads, t.writer = false) ∧
    ∀ m, (tryNow s i m).map Prod.snd = some (.acquired m) ∨
      (tryNow s i m).map Prod.snd = some .wouldBlock := by
  have hc := h.clean (init_clean n) hl
  have hlen : s.threads.length = n := by rw [h.length]; simp [init]
  obtain ⟨t, ht⟩ : ∃ t, s.threads[i]? = some t :=
    ⟨s.threads[i]'(by omega), List.getElem?_eq_getElem (by omega)⟩
  have hti := hq t (List.mem_of_getElem? ht)
  have hword := hc.word.2
  have hlow := hc.low
  have hex := hc.exact
  rw [sharedHolds_quiet hq] at hword
  have hnp : ¬ (s.word &&& POISONED ≠ 0) := by rw [and_poisoned (by omega)]; omega
  have hholds : (∀ t ∈ s.threads, ¬ t.holds) ↔ s.exclCount = 0 ∧ sharedHolds s = 0 := by
    rw [exclCount_quiet hq, sharedHolds_zero]
    constructor
    · intro h
      refine ⟨fun t ht => ?_, fun t ht => ?_⟩
      · have := h t ht
        simp only [Th.holds, not_or] at this
        simpa using this.1
      · have := h t ht
        simp only [Th.holds, not_or] at this
        omega
    · rintro ⟨h1, h2⟩ t ht
      simp [Th.holds, h1 t ht, h2 t ht]
  have hE' := hE
  have hx : s.word &&& EXCLUSIVE ≠ 0 ↔ s.exclCount = 1 := by
    rw [and_exclusive hlow]; omega
  have hx0 : ¬ (s.word &&& EXCLUSIVE ≠ 0) → s.word = sharedHolds s ∧ s.exclCount = 0 := by
    intro hcx
    rw [and_exclusive hlow] at hcx
    omega
  refine ⟨?_, ?_, ?_⟩
  · rw [tryNow_eq ht hti, if_neg hnp, hholds]
    by_cases hcx : s.word &&& EXCLUSIVE ≠ 0
    · rw [if_pos hcx]
      have := hx.1 hcx
      simp; omega
    · rw [if_neg hcx]
      have := hx0 hcx
      by_cases h0 : s.word = 0
      · simp [h0]; omega
      · simp [h0]; omega
  · rw [tryNow_eq ht hti, if_neg hnp, ← exclCount_quiet hq]
    by_cases hcx : s.word &&& EXCLUSIVE ≠ 0
    · rw [if_pos hcx]
      have := hx.1 hcx
      simp; omega
    · rw [if_neg hcx]
      have := hx0 hcx
      simp; omega
  · intro m
    rw [tryNow_eq ht hti, if_neg hnp]
    by_cases hcx : s.word &&& EXCLUSIVE ≠ 0
    · rw [if_pos hcx]; simp
    · rw [if_neg hcx]
      cases m with
      | shared => simp
      | excl => by_cases h0 : s.word = 0 <;> simp [h0]

/-- **C32**.  Once a thread dropped the lock while panicking, whatever the threads do afterwards: no
call to `lock`, `lock_mut`, `try_lock` or `try_lock_mut` ever succeeds, no call started afterwards
returns `WouldBlock`, and every undisturbed attempt returns `Poisoned`. -/
theorem C32_poison_sticky {n : Nat} {l₁ l₂ : List (Nat × Act × Ev)} {s₁ s₂ : State}
    (h₁ : Run (init n) l₁ s₁) (hp : ∃ x ∈ l₁, x.2.2 = Ev.poison) (h₂ : Run s₁ l₂ s₂) :
    (∀ x ∈ l₂, ∀ m, x.2.2 ≠ .acquired m) ∧
    (∀ i t, s₁.threads[i]? = some t → t.pc = .idle → ∀ x ∈ l₂, x.1 = i → x.2.2 ≠ .wouldBlock) ∧
    ∀ i t m, s₂.threads[i]? = some t → t.pc = .idle →
      (tryNow s₂ i m).map Prod.snd = some .poisoned := by
  have hi := h₁.inv (init_inv n)
  have hp1 := h₁.poison_event (init_inv n) hp
  have h := h₂.poisoned hi hp1
  refine ⟨h.2.1, ?_, ?_⟩
  · intro i t ht hti x hx hxi
    refine h.2.2 i ?_ x hx hxi
    intro t' ht'
    rw [ht] at ht'; cases ht'
    simp [hti]
  · intro i t m ht hti
    rw [tryNow_eq ht hti, if_pos ((and_poisoned (h₂.inv hi).word.1).2 h.1)]

/-- Without a matching acquisition, `unlock` on a poisoned lock removes the poison: the word becomes
`2 ^ 63 - 1`, and `try_lock` then answers `WouldBlock` instead of `Poisoned`. -/
theorem C32_unbalanced_unlock :
    (stepTh POISONED ⟨.unlock .shared, 0, false⟩ (.run false) =
      some (POISONED, ⟨.unlockLoop .shared POISONED, 0, false⟩, .silent)) ∧
    (stepTh POISONED ⟨.unlockLoop .shared POISONED, 0, false⟩ (.run false) =
      some (2 ^ 63 - 1, ⟨.idle, 0, false⟩, .released)) ∧
    (tryNow ⟨2 ^ 63 - 1, [Th.new]⟩ 0 .shared).map Prod.snd = some .wouldBlock := by
  decide +kernel

/-! ## C54: a released lock can be taken again -/

/-- Full statement: when no call is in progress, nobody holds the lock and nobody panicked, an
undisturbed `try_lock_mut` succeeds. -/
def C54_full : Prop :=
  ∀ (n : Nat) (l : List (Nat × Act × Ev)) (s : State), Run (init n) l s → Quiet s →
    (∀ x ∈ l, x.2.2 ≠ Ev.poison) → (∀ t ∈ s.threads, ¬ t.holds) →
    ∀ i, i < n → (tryNow s i .excl).map Prod.snd = some (.acquired .excl)

/-- **C54**, proved part: if no `compare_exchange_weak` failed spuriously. -/
theorem C54_partial {n : Nat} {l : List (Nat × Act × Ev)} {s : State}
    (h : Run (init n) l s) (hq : Quiet s) (hl : NoAccident l) (hh : ∀ t ∈ s.threads, ¬ t.holds)
    {i : Nat} (hi : i < n) : (tryNow s i .excl).map Prod.snd = some (.acquired .excl) :=
  (C31_exact h hq hl hi).1.2 hh

/-- Lock, then unlock with a spurious failure of the first `compare_exchange_weak`. -/
def leakRun : List (Nat × Act × Ev) :=
  [(0, .acquire .excl false, .called .excl), (0, .run false, .silent),
   (0, .run false, .acquired .excl), (0, .release, .releasing), (0, .run true, .silent),
   (0, .run false, .released)]

theorem leak : Run (init 2) leakRun ⟨EXCLUSIVE, [Th.new, Th.new]⟩ := by
  have hb : ∀ w a b, (⟨w, [⟨a, 0, b⟩, Th.new]⟩ : State).sharedCount < 2 ^ 62 := by
    intro w a b
    simp only [State.sharedCount, Th.sharedCount, Th.new, List.map_cons, List.map_nil,
      List.sum_cons, List.sum_nil]
    split <;> decide
  have e : init 2 = ⟨0, [Th.new, Th.new]⟩ := rfl
  rw [e]
  exact .cons (by decide +kernel) (hb 0 (.load .excl false) false)
    (.cons (by decide +kernel) (hb 0 (.cas .excl false 0) false)
    (.cons (by decide +kernel) (hb EXCLUSIVE .idle true)
    (.cons (by decide +kernel) (hb EXCLUSIVE (.unlock .excl) false)
    (.cons (by decide +kernel) (hb EXCLUSIVE (.unlockLoop .excl EXCLUSIVE) false)
    (.cons (by decide +kernel) (hb EXCLUSIVE .idle false) (.nil _))))))

/-- `unlock` gives up when its first `compare_exchange_weak` fails spuriously: the lock stays locked
although nobody holds it, **forever**: no locking call of any thread ever succeeds again. -/
theorem C54_leak : ∃ l s, Run (init 2) l s ∧ Quiet s ∧ (∀ x ∈ l, x.2.2 ≠ Ev.poison) ∧
    (∀ t ∈ s.threads, ¬ t.holds) ∧
    ∀ l' s', Run s l' s' → ∀ x ∈ l', ∀ m, x.2.2 ≠ .acquired m := by
  refine ⟨leakRun, _, leak, ?_, ?_, ?_, ?_⟩
  · intro t ht; simp [Th.new] at ht; simp [ht]
  · decide
  · intro t ht; simp [Th.new] at ht; simp [ht, Th.holds]
  · intro l' s' h
    refine (h.stuck ⟨.inl rfl, ?_⟩).2
    intro t ht; simp [Th.new] at ht; simp [ht]

theorem C54_false : ¬ C54_full := by
  intro h
  have := h 2 leakRun _ leak (by intro t ht; simp [Th.new] at ht; simp [ht]) (by decide)
    (by intro t ht; simp [Th.new] at ht; simp [ht, Th.holds]) 0 (by omega)
  revert this
  decide +kernel

/-! ## The hypotheses are met -/

/-- Two readers, then one of them panics and gives its access back. -/
theorem witness_poison : ∃ l s, Run (init 2) l s ∧ (∃ x ∈ l, x.2.2 = Ev.poison) ∧
    (∃ x ∈ l, x.2.2 = Ev.acquired .shared) ∧ s.word = POISONED := by
  have hb : ∀ w a b, (⟨w, [⟨a, b, false⟩, Th.new]⟩ : State).sharedCount ≤ b + 1 := by
    intro w a b
    simp only [State.sharedCount, Th.sharedCount, Th.new, List.map_cons, List.map_nil,
      List.sum_cons, List.sum_nil]
    split <;> omega
  have e : init 2 = ⟨0, [Th.new, Th.new]⟩ := rfl
  refine ⟨[(0, .acquire .shared true, .called .shared), (0, .run false, .silent),
    (0, .run false, .acquired .shared), (0, .panicDrop, .poison), (0, .release, .releasing),
    (0, .run false, .silent), (0, .run false, .released)], ⟨POISONED, [Th.new, Th.new]⟩, ?_,
    by decide, by decide, rfl⟩
  rw [e]
  exact .cons (by decide +kernel) (Nat.lt_of_le_of_lt (hb 0 (.load .shared true) 0) (by decide))
    (.cons (by decide +kernel) (Nat.lt_of_le_of_lt (hb 0 (.cas .shared true 0) 0) (by decide))
    (.cons (by decide +kernel) (Nat.lt_of_le_of_lt (hb 1 .idle 1) (by decide))
    (.cons (by decide +kernel) (Nat.lt_of_le_of_lt (hb (POISONED + 1) .idle 1) (by decide))
    (.cons (by decide +kernel) (Nat.lt_of_le_of_lt (hb (POISONED + 1) (.unlock .shared) 0) (by decide))
    (.cons (by decide +kernel)
      (Nat.lt_of_le_of_lt (hb (POISONED + 1) (.unlockLoop .shared (POISONED + 1)) 0) (by decide))
    (.cons (by decide +kernel) (Nat.lt_of_le_of_lt (hb POISONED .idle 0) (by decide)) (.nil _)))))))

/-- Two readers at the same time. -/
theorem witness_readers : ∃ l s, Run (init 2) l s ∧ Quiet s ∧ NoAccident l ∧ sharedHolds s = 2 := by
  have e : init 2 = ⟨0, [Th.new, Th.new]⟩ := rfl
  refine ⟨[(0, .acquire .shared true, .called .shared), (0, .run false, .silent),
    (0, .run false, .acquired .shared), (1, .acquire .shared false, .called .shared),
    (1, .run false, .silent), (1, .run false, .acquired .shared)],
    ⟨2, [⟨.idle, 1, false⟩, ⟨.idle, 1, false⟩]⟩, ?_, ?_, ?_, rfl⟩
  · rw [e]
    exact .cons (s' := ⟨0, [⟨.load .shared true, 0, false⟩, Th.new]⟩)
        (by decide +kernel) (by decide +kernel)
      (.cons (s' := ⟨0, [⟨.cas .shared true 0, 0, false⟩, Th.new]⟩)
        (by decide +kernel) (by decide +kernel)
      (.cons (s' := ⟨1, [⟨.idle, 1, false⟩, Th.new]⟩)
        (by decide +kernel) (by decide +kernel)
      (.cons (s' := ⟨1, [⟨.idle, 1, false⟩, ⟨.load .shared false, 0, false⟩]⟩)
        (by decide +kernel) (by decide +kernel)
      (.cons (s' := ⟨1, [⟨.idle, 1, false⟩, ⟨.cas .shared false 1, 0, false⟩]⟩)
        (by decide +kernel) (by decide +kernel)
      (.cons (by decide +kernel) (by decide +kernel) (.nil _))))))
  · intro t ht; simp at ht; simp [ht]
  · unfold NoAccident; decide

end Byoc.LockProps
