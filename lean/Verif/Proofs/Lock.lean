import Verif.Model.Lock

/-! Invariants of the `RWLock` transition system. -/

namespace Byoc.Lock

theorem sum_set {α : Type} (f : α → Nat) : ∀ (l : List α) (i : Nat) (t t' : α), l[i]? = some t →
    ((l.set i t').map f).sum + f t = (l.map f).sum + f t'
  | [], _, _, _, h => by simp at h
  | a :: l, 0, t, t', h => by
    simp at h; subst h; simp; omega
  | a :: l, i + 1, t, t', h => by
    have := sum_set f l i t t' (by simpa using h)
    simp only [List.set_cons_succ, List.map_cons, List.sum_cons]; omega

theorem le_sum {α : Type} (f : α → Nat) : ∀ (l : List α) (t : α), t ∈ l → f t ≤ (l.map f).sum
  | a :: l, t, h => by
    rcases List.mem_cons.1 h with h | h
    · subst h; simp
    · have := le_sum f l t h; simp; omega

theorem le_sum_two {α : Type} (f : α → Nat) : ∀ (l : List α) (i j : Nat) (t u : α), i ≠ j →
    l[i]? = some t → l[j]? = some u → f t + f u ≤ (l.map f).sum
  | [], _, _, _, _, _, h, _ => by simp at h
  | a :: l, 0, 0, t, u, hij, _, _ => absurd rfl hij
  | a :: l, 0, j + 1, t, u, _, hi, hj => by
    simp at hi hj; subst hi
    have := le_sum f l u (List.mem_of_getElem? hj)
    simp; omega
  | a :: l, i + 1, 0, t, u, _, hi, hj => by
    simp at hi hj; subst hj
    have := le_sum f l t (List.mem_of_getElem? hi)
    simp; omega
  | a :: l, i + 1, j + 1, t, u, hij, hi, hj => by
    have := le_sum_two f l i j t u (by omega) (by simpa using hi) (by simpa using hj)
    simp; omega

theorem and_two_pow_ne (w i : Nat) : w &&& 2 ^ i ≠ 0 ↔ w / 2 ^ i % 2 = 1 := by
  have ht : w.testBit i = true ↔ w / 2 ^ i % 2 = 1 := by
    rw [Nat.testBit_eq_decide_div_mod_eq]; simp
  rw [← ht]
  constructor
  · intro h
    by_contra hc
    apply h
    apply Nat.eq_of_testBit_eq
    intro j
    rw [Nat.testBit_and, Nat.testBit_two_pow]
    by_cases hj : i = j
    · subst hj
      simp only [Bool.not_eq_true] at hc
      simp [hc]
    · simp [hj]
  · intro h hz
    have := congrArg (fun n => n.testBit i) hz
    simp [Nat.testBit_and, h] at this

theorem and_poisoned {w : Nat} (h : w < 2 ^ 64) : w &&& POISONED ≠ 0 ↔ 2 ^ 63 ≤ w := by
  unfold POISONED
  rw [and_two_pow_ne]; omega

theorem and_exclusive {w : Nat} (h : w < 2 ^ 63) : w &&& EXCLUSIVE ≠ 0 ↔ 2 ^ 62 ≤ w := by
  unfold EXCLUSIVE
  rw [and_two_pow_ne]; omega

theorem hE : EXCLUSIVE = 2 ^ 62 := rfl
theorem hP : POISONED = 2 ^ 63 := rfl

theorem or_poisoned {w : Nat} (h : w < 2 ^ 64) : w ||| POISONED = w % 2 ^ 63 + 2 ^ 63 := by
  unfold POISONED
  have hlt : w % 2 ^ 63 < 2 ^ 63 := Nat.mod_lt _ (by decide)
  have key : 2 ^ 63 + w % 2 ^ 63 = 2 ^ 63 ||| w % 2 ^ 63 := by
    have := Nat.two_pow_add_eq_or_of_lt hlt 1
    simpa using this
  by_cases hw : w < 2 ^ 63
  · rw [Nat.mod_eq_of_lt hw] at *
    rw [Nat.or_comm, ← key]; omega
  · have e : w = 2 ^ 63 ||| w % 2 ^ 63 := by rw [← key]; omega
    have : w ||| 2 ^ 63 = w := by
      rw [e, Nat.or_comm, ← Nat.or_assoc, Nat.or_self]
    rw [this]; omega

/-- Exclusive accesses held or being given back. -/
def Th.exclCount (t : Th) : Nat :=
  (if t.writer then 1 else 0) + match t.pc with
    | .unlock .excl => 1
    | .unlockLoop .excl c => if c = EXCLUSIVE then 0 else 1
    | _ => 0

def State.exclCount (s : State) : Nat := (s.threads.map Th.exclCount).sum

/-- What the local variables of a thread can be. -/
def Th.Loc (t : Th) : Prop :=
  match t.pc with
  | .cas _ _ c => c < 2 ^ 62
  | .unlockLoop .shared c => c < 2 ^ 64 ∧ 1 ≤ c % 2 ^ 63 ∧ c % 2 ^ 63 < 2 ^ 62
  | .unlockLoop .excl c => c = EXCLUSIVE ∨ c = POISONED + EXCLUSIVE
  | _ => True

/-- The relation between the word, the number of shared accesses `r` and of exclusive accesses `x`. -/
def Word (w r x : Nat) : Prop :=
  w < 2 ^ 64 ∧ (
    (w % 2 ^ 63 = r ∧ x = 0 ∧ r < 2 ^ 62) ∨
    (w % 2 ^ 63 = 2 ^ 62 ∧ r = 0 ∧ x ≤ 1) ∨
    (2 ^ 63 ≤ w ∧ w % 2 ^ 63 = 2 ^ 62 - 1 ∧ r = 0 ∧ x = 0))

structure Inv (s : State) : Prop where
  loc : ∀ t ∈ s.threads, t.Loc
  word : Word s.word s.sharedCount s.exclCount

theorem init_inv (n : Nat) : Inv (init n) := by
  constructor
  · intro t h
    have := (List.mem_replicate.1 h).2
    subst this; simp [Th.Loc, Th.new]
  · have h1 : (init n).sharedCount = 0 := by
      simp [init, State.sharedCount, Th.new, Th.sharedCount]
    have h2 : (init n).exclCount = 0 := by
      simp [init, State.exclCount, Th.new, Th.exclCount]
    rw [h1, h2]
    exact ⟨by simp [init], .inl ⟨by simp [init], rfl, by decide⟩⟩

/-- One atomic step of one thread keeps the invariant; `r` and `x` are what the other threads have. -/
theorem stepTh_inv {w w' : Nat} {t t' : Th} {a e} {r x : Nat} (hl : t.Loc)
    (hw : Word w (r + t.sharedCount) (x + t.exclCount)) (hs : stepTh w t a = some (w', t', e))
    (hb : r + t'.sharedCount < 2 ^ 62) :
    t'.Loc ∧ Word w' (r + t'.sharedCount) (x + t'.exclCount) := by
  obtain ⟨pc, rd, wr⟩ := t
  have hw64 : w < 2 ^ 64 := hw.1
  cases a with
  | acquire m wait =>
    simp only [stepTh, Option.ite_none_right_eq_some, Option.some.injEq, Prod.mk.injEq] at hs
    obtain ⟨h0, rfl, rfl, rfl⟩ := hs
    subst h0
    exact ⟨by simp [Th.Loc], by simpa [Th.sharedCount, Th.exclCount] using hw⟩
  | release =>
    simp only [stepTh, Option.ite_none_right_eq_some] at hs
    obtain ⟨h0, hs⟩ := hs
    subst h0
    cases wr with
    | true =>
      simp at hs
      obtain ⟨rfl, rfl, rfl⟩ := hs
      refine ⟨by simp [Th.Loc], ?_⟩
      simp [Th.sharedCount, Th.exclCount] at hw ⊢
      exact hw
    | false =>
      simp at hs
      obtain ⟨h1, rfl, rfl, rfl⟩ := hs
      refine ⟨by simp [Th.Loc], ?_⟩
      simp only [Th.sharedCount, Th.exclCount] at hw ⊢
      have : rd - 1 + 1 = rd := by omega
      simpa [this] using hw
  | panicDrop =>
    simp only [stepTh, Option.ite_none_right_eq_some, Option.some.injEq, Prod.mk.injEq] at hs
    obtain ⟨h0, rfl, rfl, rfl⟩ := hs
    refine ⟨hl, ?_⟩
    rw [or_poisoned hw64]
    obtain ⟨_, hw⟩ := hw
    refine ⟨by omega, ?_⟩
    omega
  | run sp =>
    cases pc with
    | idle => simp [stepTh] at hs
    | load m wait =>
      simp only [stepTh] at hs
      by_cases hp : w &&& POISONED ≠ 0
      · simp [hp] at hs
        obtain ⟨rfl, rfl, rfl⟩ := hs
        exact ⟨by simp [Th.Loc], by simpa [Th.sharedCount, Th.exclCount] using hw⟩
      · rw [if_neg hp] at hs
        rw [and_poisoned hw64] at hp
        by_cases hx : w &&& EXCLUSIVE ≠ 0
        · rw [if_pos hx] at hs
          cases wait <;> simp at hs <;> obtain ⟨rfl, rfl, rfl⟩ := hs <;>
            exact ⟨by simp [Th.Loc], by simpa [Th.sharedCount, Th.exclCount] using hw⟩
        · rw [if_neg hx] at hs
          rw [and_exclusive (by omega)] at hx
          simp at hs
          obtain ⟨rfl, rfl, rfl⟩ := hs
          refine ⟨by simp only [Th.Loc]; omega, ?_⟩
          simpa [Th.sharedCount, Th.exclCount] using hw
    | cas m wait count =>
      have hc : count < 2 ^ 62 := by simpa [Th.Loc] using hl
      cases m with
      | shared =>
        simp only [stepTh, casWeak] at hs
        by_cases hs' : w = count ∧ sp = false
        · simp only [if_pos hs'] at hs
          simp at hs
          obtain ⟨rfl, rfl, rfl⟩ := hs
          refine ⟨by simp [Th.Loc], ?_⟩
          simp only [Th.sharedCount, Th.exclCount] at hw hb ⊢
          obtain ⟨rfl, _⟩ := hs'
          simp only [Nat.add_zero] at hw hb ⊢
          obtain ⟨_, hw⟩ := hw
          refine ⟨by omega, ?_⟩
          omega
        · simp only [if_neg hs'] at hs
          cases wait <;> simp at hs <;> obtain ⟨rfl, rfl, rfl⟩ := hs <;>
            exact ⟨by simp [Th.Loc], by simpa [Th.sharedCount, Th.exclCount] using hw⟩
      | excl =>
        simp only [stepTh, casWeak] at hs
        by_cases hs' : w = 0 ∧ sp = false
        · simp only [if_pos hs'] at hs
          simp at hs
          obtain ⟨rfl, rfl, rfl⟩ := hs
          refine ⟨by simp [Th.Loc], ?_⟩
          obtain ⟨rfl, _⟩ := hs'
          simp only [Th.sharedCount, Th.exclCount, EXCLUSIVE] at hw ⊢
          obtain ⟨_, hw⟩ := hw
          simp only [Nat.add_zero, if_true] at hw ⊢
          cases wr <;> simp at hw ⊢ <;> refine ⟨by omega, ?_⟩ <;> omega
        · simp only [if_neg hs'] at hs
          cases wait <;> simp at hs <;> obtain ⟨rfl, rfl, rfl⟩ := hs <;>
            exact ⟨by simp [Th.Loc], by simpa [Th.sharedCount, Th.exclCount] using hw⟩
    | unlock m =>
      simp only [stepTh, casWeak, Option.some.injEq, Prod.mk.injEq] at hs
      obtain ⟨hw', rfl, rfl⟩ := hs
      have := hE
      have := hP
      cases m with
      | shared =>
        simp only [Th.sharedCount, Th.exclCount, Nat.add_zero] at hw ⊢
        have hwd := hw.2
        have hne : ¬ (w = EXCLUSIVE ∧ sp = false) := by omega
        simp only [if_neg hne] at hw'
        subst hw'
        refine ⟨?_, hw⟩
        simp only [Th.Loc]
        omega
      | excl =>
        simp only [Th.sharedCount, Th.exclCount, Nat.add_zero] at hw ⊢
        have hwd := hw.2
        have hcase : w = EXCLUSIVE ∨ w = POISONED + EXCLUSIVE := by omega
        refine ⟨by simpa [Th.Loc] using hcase, ?_⟩
        by_cases he : w = EXCLUSIVE
        · simp only [if_pos he]
          by_cases hsp : sp = false
          · simp only [if_pos (And.intro he hsp)] at hw'
            subst hw'
            refine ⟨by omega, ?_⟩
            omega
          · have hne : ¬ (w = EXCLUSIVE ∧ sp = false) := fun h => hsp h.2
            simp only [if_neg hne] at hw'
            subst hw'
            refine ⟨by omega, ?_⟩
            omega
        · simp only [if_neg he]
          have hne : ¬ (w = EXCLUSIVE ∧ sp = false) := fun h => he h.1
          simp only [if_neg hne] at hw'
          subst hw'
          exact hw
    | unlockLoop m count =>
      simp only [stepTh, casWeak] at hs
      cases m with
      | shared =>
        have hl' : count < 2 ^ 64 ∧ 1 ≤ count % 2 ^ 63 ∧ count % 2 ^ 63 < 2 ^ 62 := by
          simpa [Th.Loc] using hl
        have hne : ¬ (count = 0 ∨ count = EXCLUSIVE) := by unfold EXCLUSIVE; omega
        rw [if_neg hne] at hs
        simp only [Th.sharedCount, Th.exclCount, Nat.add_zero] at hw
        by_cases hs' : w = count ∧ sp = false
        · simp only [if_pos hs'] at hs
          simp at hs
          obtain ⟨rfl, rfl, rfl⟩ := hs
          obtain ⟨rfl, _⟩ := hs'
          refine ⟨by simp [Th.Loc], ?_⟩
          simp only [Th.sharedCount, Th.exclCount, Nat.add_zero]
          obtain ⟨_, hw⟩ := hw
          refine ⟨by omega, ?_⟩
          omega
        · simp only [if_neg hs'] at hs
          simp at hs
          obtain ⟨rfl, rfl, rfl⟩ := hs
          have hwd := hw.2
          refine ⟨by simp only [Th.Loc]; omega, ?_⟩
          simpa [Th.sharedCount, Th.exclCount] using hw
      | excl =>
        have hl' : count = EXCLUSIVE ∨ count = POISONED + EXCLUSIVE := by simpa [Th.Loc] using hl
        by_cases hce : count = EXCLUSIVE
        · rw [if_pos (.inr hce)] at hs
          simp at hs
          obtain ⟨rfl, rfl, rfl⟩ := hs
          refine ⟨by simp [Th.Loc], ?_⟩
          simpa [Th.sharedCount, Th.exclCount, hce] using hw
        · have hcp : count = POISONED + EXCLUSIVE := by omega
          have hne : ¬ (count = 0 ∨ count = EXCLUSIVE) := by
            rw [hcp]; unfold EXCLUSIVE POISONED; omega
          rw [if_neg hne] at hs
          simp only [Th.sharedCount, Th.exclCount, Nat.add_zero, if_neg hce] at hw
          by_cases hs' : w = count ∧ sp = false
          · simp only [if_pos hs'] at hs
            simp at hs
            obtain ⟨rfl, rfl, rfl⟩ := hs
            refine ⟨by simp [Th.Loc], ?_⟩
            simp only [Th.sharedCount, Th.exclCount, Nat.add_zero]
            obtain ⟨rfl, _⟩ := hs'
            unfold EXCLUSIVE POISONED at hcp
            obtain ⟨_, hw⟩ := hw
            refine ⟨by omega, ?_⟩
            omega
          · simp only [if_neg hs'] at hs
            simp at hs
            obtain ⟨rfl, rfl, rfl⟩ := hs
            have hwd := hw.2
            have := hE
            have := hP
            have hcase : w = EXCLUSIVE ∨ w = POISONED + EXCLUSIVE := by omega
            refine ⟨by simpa [Th.Loc] using hcase, ?_⟩
            simp only [Th.sharedCount, Th.exclCount, Nat.add_zero]
            by_cases he : w = EXCLUSIVE
            · simp only [if_pos he]
              refine ⟨by omega, ?_⟩
              omega
            · simp only [if_neg he]
              exact hw

theorem step_eq {s s' : State} {i a e} (h : step s i a = some (s', e)) :
    ∃ t w' t', s.threads[i]? = some t ∧ stepTh s.word t a = some (w', t', e) ∧
      s' = ⟨w', s.threads.set i t'⟩ := by
  unfold step at h
  split at h
  · simp at h
  · rename_i t ht
    simp only [Option.map_eq_some_iff, Prod.mk.injEq] at h
    obtain ⟨⟨w', t', e'⟩, h1, h2, h3⟩ := h
    subst h3
    exact ⟨t, w', t', ht, h1, h2.symm⟩

theorem step_inv {s s' : State} {i a e} (hi : Inv s) (h : step s i a = some (s', e))
    (hb : s'.sharedCount < 2 ^ 62) : Inv s' := by
  obtain ⟨t, w', t', ht, hs, rfl⟩ := step_eq h
  have hr := sum_set Th.sharedCount s.threads i t t' ht
  have hx := sum_set Th.exclCount s.threads i t t' ht
  have hlr := le_sum Th.sharedCount s.threads t (List.mem_of_getElem? ht)
  have hlx := le_sum Th.exclCount s.threads t (List.mem_of_getElem? ht)
  simp only [State.sharedCount] at hb
  have := stepTh_inv (r := (s.threads.map Th.sharedCount).sum - t.sharedCount)
    (x := (s.threads.map Th.exclCount).sum - t.exclCount)
    (hi.loc t (List.mem_of_getElem? ht))
    (by rw [Nat.sub_add_cancel hlr, Nat.sub_add_cancel hlx]; exact hi.word) hs (by omega)
  constructor
  · intro u hu
    rcases List.mem_or_eq_of_mem_set hu with hu | rfl
    · exact hi.loc u hu
    · exact this.1
  · simp only [State.sharedCount, State.exclCount]
    have e1 : ((s.threads.set i t').map Th.sharedCount).sum =
      (s.threads.map Th.sharedCount).sum - t.sharedCount + t'.sharedCount := by omega
    have e2 : ((s.threads.set i t').map Th.exclCount).sum =
      (s.threads.map Th.exclCount).sum - t.exclCount + t'.exclCount := by omega
    rw [e1, e2]; exact this.2

theorem Run.inv {s s' : State} {l} (h : Run s l s') (hi : Inv s) : Inv s' := by
  induction h with
  | nil => exact hi
  | cons h1 h2 _ ih => exact ih (step_inv hi h1 h2)

/-! ### No spurious failure, no panic -/

/-- The step is not a spurious failure and not a panic. -/
def Act.clean : Act → Bool
  | .panicDrop => false
  | .run sp => !sp
  | _ => true

/-- Without spurious failures and panics the word is never poisoned and exclusive only while a thread
has exclusive access. -/
structure Clean (s : State) : Prop extends Inv s where
  low : s.word < 2 ^ 63
  exact : s.word = EXCLUSIVE → s.exclCount = 1
  loop : ∀ t ∈ s.threads, ∀ c, t.pc = .unlockLoop .excl c → c = EXCLUSIVE

theorem stepTh_clean {w w' : Nat} {t t' : Th} {a e} {r x : Nat} (hl : t.Loc)
    (hw : Word w (r + t.sharedCount) (x + t.exclCount)) (hs : stepTh w t a = some (w', t', e))
    (hb : r + t'.sharedCount < 2 ^ 62) (ha : a.clean = true)
    (hlow : w < 2 ^ 63) (hex : w = 2 ^ 62 → x + t.exclCount = 1)
    (hlc : ∀ c, t.pc = .unlockLoop .excl c → c = EXCLUSIVE) :
    w' < 2 ^ 63 ∧ (w' = 2 ^ 62 → x + t'.exclCount = 1) := by
  obtain ⟨pc, rd, wr⟩ := t
  have hw64 : w < 2 ^ 64 := hw.1
  cases a with
  | acquire m wait =>
    simp only [stepTh, Option.ite_none_right_eq_some, Option.some.injEq, Prod.mk.injEq] at hs
    obtain ⟨h0, rfl, rfl, rfl⟩ := hs
    subst h0
    exact ⟨hlow, by simpa [Th.exclCount] using hex⟩
  | release =>
    simp only [stepTh, Option.ite_none_right_eq_some] at hs
    obtain ⟨h0, hs⟩ := hs
    subst h0
    cases wr with
    | true =>
      simp at hs
      obtain ⟨rfl, rfl, rfl⟩ := hs
      exact ⟨hlow, by simpa [Th.exclCount] using hex⟩
    | false =>
      simp at hs
      obtain ⟨h1, rfl, rfl, rfl⟩ := hs
      exact ⟨hlow, by simpa [Th.exclCount] using hex⟩
  | panicDrop => simp [Act.clean] at ha
  | run sp =>
    have hsp : sp = false := by simpa [Act.clean] using ha
    subst hsp
    cases pc with
    | idle => simp [stepTh] at hs
    | load m wait =>
      have hne : ¬ (w &&& POISONED ≠ 0) := by rw [and_poisoned hw64]; omega
      simp only [stepTh, if_neg hne] at hs
      by_cases hx : w &&& EXCLUSIVE ≠ 0
      · rw [if_pos hx] at hs
        cases wait <;> simp at hs <;> obtain ⟨rfl, rfl, rfl⟩ := hs <;>
          exact ⟨hlow, by simpa [Th.exclCount] using hex⟩
      · rw [if_neg hx] at hs
        simp at hs
        obtain ⟨rfl, rfl, rfl⟩ := hs
        exact ⟨hlow, by simpa [Th.exclCount] using hex⟩
    | cas m wait count =>
      have hc : count < 2 ^ 62 := by simpa [Th.Loc] using hl
      cases m with
      | shared =>
        simp only [stepTh, casWeak, and_true] at hs
        by_cases hs' : w = count
        · simp only [if_pos hs'] at hs
          simp at hs
          obtain ⟨rfl, rfl, rfl⟩ := hs
          simp only [Th.sharedCount, Th.exclCount, Nat.add_zero] at hw hb ⊢
          subst hs'
          obtain ⟨_, hw⟩ := hw
          refine ⟨by omega, ?_⟩
          intro h
          omega
        · simp only [if_neg hs'] at hs
          cases wait <;> simp at hs <;> obtain ⟨rfl, rfl, rfl⟩ := hs <;>
            exact ⟨hlow, by simpa [Th.exclCount] using hex⟩
      | excl =>
        simp only [stepTh, casWeak, and_true] at hs
        by_cases hs' : w = 0
        · simp only [if_pos hs'] at hs
          simp at hs
          obtain ⟨rfl, rfl, rfl⟩ := hs
          subst hs'
          simp only [Th.sharedCount, Th.exclCount, EXCLUSIVE] at hw ⊢
          obtain ⟨_, hw⟩ := hw
          refine ⟨by omega, ?_⟩
          intro _
          simp only [Nat.add_zero, if_true] at hw ⊢
          omega
        · simp only [if_neg hs'] at hs
          cases wait <;> simp at hs <;> obtain ⟨rfl, rfl, rfl⟩ := hs <;>
            exact ⟨hlow, by simpa [Th.exclCount] using hex⟩
    | unlock m =>
      simp only [stepTh, casWeak, and_true, Option.some.injEq, Prod.mk.injEq] at hs
      obtain ⟨hw', rfl, rfl⟩ := hs
      by_cases he : w = EXCLUSIVE
      · simp only [if_pos he] at hw'
        subst hw'
        exact ⟨by omega, by omega⟩
      · simp only [if_neg he] at hw'
        subst hw'
        exact ⟨hlow, fun h => absurd h he⟩
    | unlockLoop m count =>
      simp only [stepTh, casWeak, and_true] at hs
      by_cases h0 : count = 0 ∨ count = EXCLUSIVE
      · rw [if_pos h0] at hs
        simp at hs
        obtain ⟨rfl, rfl, rfl⟩ := hs
        refine ⟨hlow, fun h => ?_⟩
        have := hex h
        cases m with
        | shared => simpa [Th.exclCount] using this
        | excl =>
          have hce : count = EXCLUSIVE := by
            rcases h0 with h0 | h0
            · have hl' : count = EXCLUSIVE ∨ count = POISONED + EXCLUSIVE := by
                simpa [Th.Loc] using hl
              unfold POISONED EXCLUSIVE at hl'
              omega
            · exact h0
          simpa [Th.exclCount, hce] using this
      · rw [if_neg h0] at hs
        have h0' : count ≠ 0 ∧ count ≠ EXCLUSIVE := by omega
        cases m with
        | shared =>
          have hl' : count < 2 ^ 64 ∧ 1 ≤ count % 2 ^ 63 ∧ count % 2 ^ 63 < 2 ^ 62 := by
            simpa [Th.Loc] using hl
          by_cases hs' : w = count
          · simp only [if_pos hs'] at hs
            simp at hs
            obtain ⟨rfl, rfl, rfl⟩ := hs
            subst hs'
            refine ⟨by omega, fun h => ?_⟩
            omega
          · simp only [if_neg hs'] at hs
            simp at hs
            obtain ⟨rfl, rfl, rfl⟩ := hs
            exact ⟨hlow, by simpa [Th.exclCount] using hex⟩
        | excl =>
          have hl' : count = EXCLUSIVE ∨ count = POISONED + EXCLUSIVE := by simpa [Th.Loc] using hl
          by_cases hs' : w = count
          · unfold POISONED EXCLUSIVE at *; omega
          · simp only [if_neg hs'] at hs
            simp at hs
            obtain ⟨rfl, rfl, rfl⟩ := hs
            exact absurd (hlc count rfl) h0'.2

theorem stepTh_loop {w w' : Nat} {t t' : Th} {a e} {r x : Nat}
    (hw : Word w (r + t.sharedCount) (x + t.exclCount)) (hs : stepTh w t a = some (w', t', e))
    (hlow : w < 2 ^ 63) (hlc : ∀ c, t.pc = .unlockLoop .excl c → c = EXCLUSIVE) :
    ∀ c, t'.pc = .unlockLoop .excl c → c = EXCLUSIVE := by
  obtain ⟨pc, rd, wr⟩ := t
  intro c hc
  cases a with
  | acquire m wait =>
    simp only [stepTh, Option.ite_none_right_eq_some, Option.some.injEq, Prod.mk.injEq] at hs
    obtain ⟨h0, rfl, rfl, rfl⟩ := hs
    simp at hc
  | release =>
    simp only [stepTh, Option.ite_none_right_eq_some] at hs
    obtain ⟨h0, hs⟩ := hs
    cases wr <;> simp at hs
    · obtain ⟨_, rfl, rfl, rfl⟩ := hs; simp at hc
    · obtain ⟨rfl, rfl, rfl⟩ := hs; simp at hc
  | panicDrop =>
    simp only [stepTh, Option.ite_none_right_eq_some, Option.some.injEq, Prod.mk.injEq] at hs
    obtain ⟨h0, rfl, rfl, rfl⟩ := hs
    exact hlc c hc
  | run sp =>
    cases pc with
    | idle => simp [stepTh] at hs
    | load m wait =>
      simp only [stepTh] at hs
      repeat' split at hs
      all_goals (simp at hs; obtain ⟨rfl, rfl, rfl⟩ := hs; simp at hc)
    | cas m wait count =>
      cases m <;> simp only [stepTh, casWeak] at hs <;> split at hs <;>
        cases wait <;> simp at hs <;> obtain ⟨rfl, rfl, rfl⟩ := hs <;>
        simp at hc
    | unlock m =>
      simp only [stepTh, casWeak, Option.some.injEq, Prod.mk.injEq] at hs
      obtain ⟨hw', rfl, rfl⟩ := hs
      simp at hc
      obtain ⟨rfl, rfl⟩ := hc
      have := hE
      simp only [Th.sharedCount, Th.exclCount] at hw
      have := hw.2
      omega
    | unlockLoop m count =>
      simp only [stepTh, casWeak] at hs
      by_cases h0 : count = 0 ∨ count = EXCLUSIVE
      · simp only [if_pos h0] at hs
        simp at hs; obtain ⟨rfl, rfl, rfl⟩ := hs; simp at hc
      · simp only [if_neg h0] at hs
        split at hs <;> simp at hs <;> obtain ⟨rfl, rfl, rfl⟩ := hs <;> simp at hc
        obtain ⟨rfl, rfl⟩ := hc
        exact absurd (.inr (hlc count rfl)) h0

theorem step_clean {s s' : State} {i a e} (hi : Clean s) (h : step s i a = some (s', e))
    (hb : s'.sharedCount < 2 ^ 62) (ha : a.clean = true) : Clean s' := by
  have hinv := step_inv hi.toInv h hb
  obtain ⟨t, w', t', ht, hs, rfl⟩ := step_eq h
  have hr := sum_set Th.sharedCount s.threads i t t' ht
  have hx := sum_set Th.exclCount s.threads i t t' ht
  have hm := List.mem_of_getElem? ht
  have hlr := le_sum Th.sharedCount s.threads t hm
  have hlx := le_sum Th.exclCount s.threads t hm
  simp only [State.sharedCount] at hb
  have hw : Word s.word ((s.threads.map Th.sharedCount).sum - t.sharedCount + t.sharedCount)
      ((s.threads.map Th.exclCount).sum - t.exclCount + t.exclCount) := by
    rw [Nat.sub_add_cancel hlr, Nat.sub_add_cancel hlx]; exact hi.word
  have hcl := stepTh_clean (hi.loc t hm) hw hs (by omega) ha hi.low
    (by rw [Nat.sub_add_cancel hlx]; exact hi.exact) (hi.loop t hm)
  refine ⟨hinv, hcl.1, fun he => ?_, ?_⟩
  · have := hcl.2 he
    simp only [State.exclCount]
    omega
  · intro u hu
    rcases List.mem_or_eq_of_mem_set hu with hu | rfl
    · exact hi.loop u hu
    · exact stepTh_loop hw hs hi.low (hi.loop t hm)

theorem init_clean (n : Nat) : Clean (init n) := by
  refine ⟨init_inv n, by simp [init], by simp [init, hE], ?_⟩
  intro t h
  have := (List.mem_replicate.1 h).2
  subst this; simp [Th.new]

theorem Run.clean {s s' : State} {l} (h : Run s l s') (hi : Clean s)
    (hl : ∀ x ∈ l, x.2.1.clean = true) : Clean s' := by
  induction h with
  | nil => exact hi
  | cons h1 h2 _ ih =>
    exact ih (step_clean hi h1 h2 (hl _ List.mem_cons_self)) (fun x hx => hl x (by simp [hx]))

theorem Run.append {s s' s'' : State} {l l'} (h : Run s l s') (h' : Run s' l' s'') :
    Run s (l ++ l') s'' := by
  induction h with
  | nil => exact h'
  | cons h1 h2 _ ih => exact .cons h1 h2 (ih h')

/-! ### Poison -/

/-- On a poisoned word no step acquires the lock or removes the poison, and a call that has not
loaded the word yet does not report `WouldBlock`. -/
theorem stepTh_poisoned {w w' : Nat} {t t' : Th} {a e} {r x : Nat} (hl : t.Loc)
    (hw : Word w (r + t.sharedCount) (x + t.exclCount)) (hs : stepTh w t a = some (w', t', e))
    (hp : 2 ^ 63 ≤ w) :
    2 ^ 63 ≤ w' ∧ (∀ m, e ≠ .acquired m) ∧
    ((∀ m b c, t.pc ≠ .cas m b c) → e ≠ .wouldBlock ∧ ∀ m b c, t'.pc ≠ .cas m b c) := by
  obtain ⟨pc, rd, wr⟩ := t
  have hw64 : w < 2 ^ 64 := hw.1
  have := hE
  have := hP
  cases a with
  | acquire m wait =>
    simp only [stepTh, Option.ite_none_right_eq_some, Option.some.injEq, Prod.mk.injEq] at hs
    obtain ⟨h0, rfl, rfl, rfl⟩ := hs
    exact ⟨hp, by simp, by simp⟩
  | release =>
    simp only [stepTh, Option.ite_none_right_eq_some] at hs
    obtain ⟨h0, hs⟩ := hs
    cases wr <;> simp at hs
    · obtain ⟨_, rfl, rfl, rfl⟩ := hs; exact ⟨hp, by simp, by simp⟩
    · obtain ⟨rfl, rfl, rfl⟩ := hs; exact ⟨hp, by simp, by simp⟩
  | panicDrop =>
    simp only [stepTh, Option.ite_none_right_eq_some, Option.some.injEq, Prod.mk.injEq] at hs
    obtain ⟨h0, rfl, rfl, rfl⟩ := hs
    exact ⟨by rw [or_poisoned hw64]; omega, by simp, fun h => ⟨by simp, h⟩⟩
  | run sp =>
    cases pc with
    | idle => simp [stepTh] at hs
    | load m wait =>
      simp only [stepTh, if_pos ((and_poisoned hw64).2 hp)] at hs
      simp at hs
      obtain ⟨rfl, rfl, rfl⟩ := hs
      exact ⟨hp, by simp, by simp⟩
    | cas m wait count =>
      have hc : count < 2 ^ 62 := by simpa [Th.Loc] using hl
      refine ⟨?_, ?_, fun h => absurd rfl (h m wait count)⟩
      · cases m
        · have hne : ¬ (w = count ∧ sp = false) := by omega
          simp only [stepTh, casWeak, if_neg hne] at hs
          cases wait <;> simp at hs <;> obtain ⟨rfl, _⟩ := hs <;> exact hp
        · have hne : ¬ (w = 0 ∧ sp = false) := by omega
          simp only [stepTh, casWeak, if_neg hne] at hs
          cases wait <;> simp at hs <;> obtain ⟨rfl, _⟩ := hs <;> exact hp
      · cases m
        · have hne : ¬ (w = count ∧ sp = false) := by omega
          simp only [stepTh, casWeak, if_neg hne] at hs
          cases wait <;> simp at hs <;> obtain ⟨rfl, _, rfl⟩ := hs <;> simp
        · have hne : ¬ (w = 0 ∧ sp = false) := by omega
          simp only [stepTh, casWeak, if_neg hne] at hs
          cases wait <;> simp at hs <;> obtain ⟨rfl, _, rfl⟩ := hs <;> simp
    | unlock m =>
      have hne : ¬ (w = EXCLUSIVE ∧ sp = false) := by omega
      simp only [stepTh, casWeak, if_neg hne, Option.some.injEq, Prod.mk.injEq] at hs
      obtain ⟨rfl, rfl, rfl⟩ := hs
      exact ⟨hp, by simp, by simp⟩
    | unlockLoop m count =>
      simp only [stepTh, casWeak] at hs
      by_cases h0 : count = 0 ∨ count = EXCLUSIVE
      · simp only [if_pos h0] at hs
        simp at hs; obtain ⟨rfl, rfl, rfl⟩ := hs
        exact ⟨hp, by simp, by simp⟩
      · simp only [if_neg h0] at hs
        by_cases hs' : w = count ∧ sp = false
        · simp only [if_pos hs'] at hs
          simp at hs
          obtain ⟨rfl, rfl, rfl⟩ := hs
          refine ⟨?_, by simp, by simp⟩
          cases m
          · have hl' : count < 2 ^ 64 ∧ 1 ≤ count % 2 ^ 63 ∧ count % 2 ^ 63 < 2 ^ 62 := by
              simpa [Th.Loc] using hl
            omega
          · have hl' : count = EXCLUSIVE ∨ count = POISONED + EXCLUSIVE := by
              simpa [Th.Loc] using hl
            omega
        · simp only [if_neg hs'] at hs
          simp at hs
          obtain ⟨rfl, rfl, rfl⟩ := hs
          exact ⟨hp, by simp, by simp⟩

theorem step_poisoned {s s' : State} {i a e} (hi : Inv s) (h : step s i a = some (s', e))
    (hp : 2 ^ 63 ≤ s.word) : 2 ^ 63 ≤ s'.word ∧ (∀ m, e ≠ .acquired m) ∧
    (∀ t, s.threads[i]? = some t → (∀ m b c, t.pc ≠ .cas m b c) → e ≠ .wouldBlock) ∧
    ∀ j : Nat, (∀ t, s.threads[j]? = some t → ∀ m b c, t.pc ≠ .cas m b c) →
      ∀ t, s'.threads[j]? = some t → ∀ m b c, t.pc ≠ .cas m b c := by
  obtain ⟨t, w', t', ht, hs, rfl⟩ := step_eq h
  have hm := List.mem_of_getElem? ht
  have hlr := le_sum Th.sharedCount s.threads t hm
  have hlx := le_sum Th.exclCount s.threads t hm
  have hw : Word s.word ((s.threads.map Th.sharedCount).sum - t.sharedCount + t.sharedCount)
      ((s.threads.map Th.exclCount).sum - t.exclCount + t.exclCount) := by
    rw [Nat.sub_add_cancel hlr, Nat.sub_add_cancel hlx]; exact hi.word
  have key := stepTh_poisoned (hi.loc t hm) hw hs hp
  refine ⟨key.1, key.2.1, ?_, ?_⟩
  · intro u hu hc
    rw [ht] at hu; cases hu
    exact (key.2.2 hc).1
  · intro j hj u hu
    by_cases hij : i = j
    · subst hij
      have hlen : i < s.threads.length := (List.getElem?_eq_some_iff.1 ht).1
      simp [List.getElem?_set, hlen] at hu
      subst hu
      exact (key.2.2 (hj t ht)).2
    · rw [List.getElem?_set_ne hij] at hu
      exact hj u hu

theorem Run.poisoned {s s' : State} {l} (h : Run s l s') (hi : Inv s) (hp : 2 ^ 63 ≤ s.word) :
    2 ^ 63 ≤ s'.word ∧ (∀ x ∈ l, ∀ m, x.2.2 ≠ .acquired m) ∧
    ∀ j : Nat, (∀ t, s.threads[j]? = some t → ∀ m b c, t.pc ≠ .cas m b c) →
      ∀ x ∈ l, x.1 = j → x.2.2 ≠ .wouldBlock := by
  induction h with
  | nil => exact ⟨hp, by simp, by simp⟩
  | @cons s s1 s2 i a e l h1 h2 _ ih =>
    have hs := step_poisoned hi h1 hp
    have ih := ih (step_inv hi h1 h2) hs.1
    refine ⟨ih.1, ?_, ?_⟩
    · intro x hx
      rcases List.mem_cons.1 hx with rfl | hx
      · exact hs.2.1
      · exact ih.2.1 x hx
    · intro j hj x hx hxj
      rcases List.mem_cons.1 hx with rfl | hx
      · simp only at hxj ⊢
        subst hxj
        obtain ⟨t, w', t', ht, _, _⟩ := step_eq h1
        exact hs.2.2.1 t ht (hj t ht)
      · exact ih.2.2 j (hs.2.2.2 j hj) x hx hxj

/-- The event `poison` leaves the word poisoned. -/
theorem Run.poison_event {s s' : State} {l} (h : Run s l s') (hi : Inv s)
    (he : ∃ x ∈ l, x.2.2 = Ev.poison) : 2 ^ 63 ≤ s'.word := by
  induction h with
  | nil => simp at he
  | @cons s s1 s2 i a e l h1 h2 h3 ih =>
    have hi1 := step_inv hi h1 h2
    obtain ⟨x, hx, hxe⟩ := he
    rcases List.mem_cons.1 hx with rfl | hx
    · simp only at hxe
      subst hxe
      refine (h3.poisoned hi1 ?_).1
      obtain ⟨t, w', t', ht, hs, rfl⟩ := step_eq h1
      have hw64 := hi.word.1
      cases a with
      | panicDrop =>
        simp only [stepTh, Option.ite_none_right_eq_some, Option.some.injEq, Prod.mk.injEq] at hs
        obtain ⟨h0, rfl, rfl, _⟩ := hs
        simp only
        rw [or_poisoned hw64]; omega
      | acquire m wait => simp [stepTh] at hs
      | release =>
        simp only [stepTh, Option.ite_none_right_eq_some] at hs
        obtain ⟨h0, hs⟩ := hs
        split at hs
        · simp at hs
        · simp at hs
      | run sp =>
        simp only [stepTh] at hs
        exfalso
        repeat' split at hs
        all_goals simp at hs
    · exact ih hi1 ⟨x, hx, hxe⟩

/-- Without the event `poison` the word is never poisoned. -/
theorem stepTh_low {w w' : Nat} {t t' : Th} {a e} {r x : Nat} (hl : t.Loc)
    (hw : Word w (r + t.sharedCount) (x + t.exclCount)) (hs : stepTh w t a = some (w', t', e))
    (hlow : w < 2 ^ 63) (he : e ≠ .poison) : w' < 2 ^ 63 := by
  obtain ⟨pc, rd, wr⟩ := t
  have := hE
  have := hP
  cases a with
  | acquire m wait =>
    simp only [stepTh, Option.ite_none_right_eq_some, Option.some.injEq, Prod.mk.injEq] at hs
    obtain ⟨h0, rfl, rfl, rfl⟩ := hs
    exact hlow
  | release =>
    simp only [stepTh, Option.ite_none_right_eq_some] at hs
    obtain ⟨h0, hs⟩ := hs
    cases wr <;> simp at hs
    · obtain ⟨_, rfl, rfl, rfl⟩ := hs; exact hlow
    · obtain ⟨rfl, rfl, rfl⟩ := hs; exact hlow
  | panicDrop =>
    simp only [stepTh, Option.ite_none_right_eq_some, Option.some.injEq, Prod.mk.injEq] at hs
    obtain ⟨h0, rfl, rfl, rfl⟩ := hs
    exact absurd rfl he
  | run sp =>
    cases pc with
    | idle => simp [stepTh] at hs
    | load m wait =>
      simp only [stepTh] at hs
      repeat' split at hs
      all_goals (simp at hs; obtain ⟨rfl, rfl, rfl⟩ := hs; exact hlow)
    | cas m wait count =>
      have hc : count < 2 ^ 62 := by simpa [Th.Loc] using hl
      cases m <;> simp only [stepTh, casWeak] at hs <;> split at hs <;>
        cases wait <;> simp at hs <;> obtain ⟨rfl, rfl, rfl⟩ := hs <;> omega
    | unlock m =>
      simp only [stepTh, casWeak, Option.some.injEq, Prod.mk.injEq] at hs
      obtain ⟨hw', rfl, rfl⟩ := hs
      split at hw' <;> simp at hw' <;> omega
    | unlockLoop m count =>
      simp only [stepTh, casWeak] at hs
      by_cases h0 : count = 0 ∨ count = EXCLUSIVE
      · simp only [if_pos h0] at hs
        simp at hs; obtain ⟨rfl, rfl, rfl⟩ := hs; exact hlow
      · simp only [if_neg h0] at hs
        split at hs <;> simp at hs <;> obtain ⟨rfl, rfl, rfl⟩ := hs <;> omega

theorem Run.low {s s' : State} {l} (h : Run s l s') (hi : Inv s) (hlow : s.word < 2 ^ 63)
    (hp : ∀ x ∈ l, x.2.2 ≠ Ev.poison) : s'.word < 2 ^ 63 := by
  induction h with
  | nil => exact hlow
  | @cons s s1 s2 i a e l h1 h2 _ ih =>
    refine ih (step_inv hi h1 h2) ?_ (fun x hx => hp x (by simp [hx]))
    have he := hp _ List.mem_cons_self
    obtain ⟨t, w', t', ht, hs, rfl⟩ := step_eq h1
    have hm := List.mem_of_getElem? ht
    have hlr := le_sum Th.sharedCount s.threads t hm
    have hlx := le_sum Th.exclCount s.threads t hm
    exact stepTh_low (r := (s.threads.map Th.sharedCount).sum - t.sharedCount)
      (x := (s.threads.map Th.exclCount).sum - t.exclCount) (hi.loc t hm)
      (by rw [Nat.sub_add_cancel hlr, Nat.sub_add_cancel hlx]; exact hi.word) hs hlow he

theorem Run.length {s s' : State} {l} (h : Run s l s') : s'.threads.length = s.threads.length := by
  induction h with
  | nil => rfl
  | cons h1 _ _ ih =>
    obtain ⟨t, w', t', ht, hs, rfl⟩ := step_eq h1
    rw [ih]; simp

/-! ### Stuck -/

/-- Nobody holds the lock or is about to change the word, but the word says it is taken. -/
structure Stuck (s : State) : Prop where
  word : s.word = EXCLUSIVE ∨ s.word = POISONED + EXCLUSIVE
  pc : ∀ t ∈ s.threads, (t.pc = .idle ∨ ∃ m b, t.pc = .load m b) ∧ t.readers = 0 ∧ t.writer = false

theorem step_stuck {s s' : State} {i a e} (hi : Stuck s) (h : step s i a = some (s', e)) :
    Stuck s' ∧ ∀ m, e ≠ .acquired m := by
  obtain ⟨t, w', t', ht, hs, rfl⟩ := step_eq h
  have hm := List.mem_of_getElem? ht
  obtain ⟨hpc, hr, hw⟩ := hi.pc t hm
  obtain ⟨pc, rd, wr⟩ := t
  simp only at hpc hr hw
  subst hr; subst hw
  suffices H : (w' = EXCLUSIVE ∨ w' = POISONED + EXCLUSIVE) ∧
      ((t'.pc = .idle ∨ ∃ m b, t'.pc = .load m b) ∧ t'.readers = 0 ∧ t'.writer = false) ∧
      ∀ m, e ≠ .acquired m by
    refine ⟨⟨H.1, ?_⟩, H.2.2⟩
    intro u hu
    rcases List.mem_or_eq_of_mem_set hu with hu | rfl
    · exact hi.pc u hu
    · exact H.2.1
  have hword := hi.word
  cases a with
  | acquire m wait =>
    simp only [stepTh, Option.ite_none_right_eq_some, Option.some.injEq, Prod.mk.injEq] at hs
    obtain ⟨h0, rfl, rfl, rfl⟩ := hs
    exact ⟨hword, by simp, by simp⟩
  | release =>
    simp [stepTh] at hs
  | panicDrop =>
    simp only [stepTh, Option.ite_none_right_eq_some, Option.some.injEq, Prod.mk.injEq] at hs
    obtain ⟨h0, rfl, rfl, rfl⟩ := hs
    refine ⟨.inr ?_, ⟨.inl h0, rfl, rfl⟩, by simp⟩
    rcases hword with hw | hw <;> rw [hw] <;> decide
  | run sp =>
    rcases hpc with rfl | ⟨m, b, rfl⟩
    · simp [stepTh] at hs
    · simp only [stepTh] at hs
      rcases hword with hw | hw
      · rw [hw] at hs
        have h1 : ¬ (EXCLUSIVE &&& POISONED ≠ 0) := by decide
        have h2 : EXCLUSIVE &&& EXCLUSIVE ≠ 0 := by decide
        simp only [if_neg h1, if_pos h2] at hs
        cases b <;> simp at hs <;> obtain ⟨rfl, rfl, rfl⟩ := hs <;> simp
      · rw [hw] at hs
        have h1 : (POISONED + EXCLUSIVE) &&& POISONED ≠ 0 := by decide
        simp only [if_pos h1] at hs
        simp at hs
        obtain ⟨rfl, rfl, rfl⟩ := hs
        simp

theorem Run.stuck {s s' : State} {l} (h : Run s l s') (hi : Stuck s) :
    Stuck s' ∧ ∀ x ∈ l, ∀ m, x.2.2 ≠ .acquired m := by
  induction h with
  | nil => exact ⟨hi, by simp⟩
  | cons h1 h2 _ ih =>
    have h1 := step_stuck hi h1
    have ih := ih h1.1
    refine ⟨ih.1, ?_⟩
    intro x hx
    rcases List.mem_cons.1 hx with rfl | hx
    · exact h1.2
    · exact ih.2 x hx

end Byoc.Lock
