import Verif.Proofs.F32
import Verif.Props.LrfuProps

/-!
# C103: `Lrfu` in single precision

The scores of `Lrfu` are computed in `f32`.  C71 has exact scores (`LrfuProps.life`): here the statistics as they are
computed.
-/

namespace Byoc.F32Props

open Byoc.F32 LrfuProps

/-- The statistics of an element made at time `t0` with exponent `e` and accessed at times `ts`. -/
def life32 (e : F32) (t0 : Nat) (ts : List Nat) : LrfuStats32 := ts.foldl LrfuStats32.touch (.new e t0)

/-- Full statement: elements are ranked as their exact scores are. -/
def C103_full : Prop :=
  ∀ (e : ℚ) (a b : Nat) (as bs : List Nat) (now : Nat), 1 ≤ e → e < 2 ^ 128 → Rep e → Timed a as now → Timed b bs now →
    now < 2 ^ 64 →
    ((life32 (.fin e) a as).score now).partialCmp ((life32 (.fin e) b bs).score now) =
      some (compare ((life e a as).score now) ((life e b bs).score now))

theorem life32_snoc (e : F32) (t0 : Nat) (ts : List Nat) (t : Nat) :
    life32 e t0 (ts ++ [t]) = (life32 e t0 ts).touch t := by
  simp [life32, List.foldl_append]

theorem life32_exponent (e : F32) (t0 : Nat) (ts : List Nat) : (life32 e t0 ts).exponent = e := by
  induction ts using List.reverseRecOn with
  | nil => rfl
  | append_singleton ts t ih => rw [life32_snoc]; exact ih

theorem life32_last (e : F32) (t0 : Nat) (ts : List Nat) : (life32 e t0 ts).last = (t0 :: ts).getLast (by simp) := by
  induction ts using List.reverseRecOn with
  | nil => rfl
  | append_singleton ts t ih => rw [life32_snoc]; simp [LrfuStats32.touch]

/-- A score is what a touch at the same time would give. -/
theorem score_eq (e : F32) (t0 : Nat) (ts : List Nat) (now : Nat) :
    (life32 e t0 ts).score now = (life32 e t0 (ts ++ [now])).eavg := by
  rw [life32_snoc]; rfl

theorem exact_score_eq (e : ℚ) (t0 : Nat) (ts : List Nat) (now : Nat) :
    (life e t0 ts).score now = (life e t0 (ts ++ [now])).eavg := by
  rw [life_snoc]; rfl

/-- Sorted, as seen from the end. -/
theorem pairwise_snoc {t0 : Nat} {ts : List Nat} {t : Nat} (h : (t0 :: (ts ++ [t])).Pairwise (· ≤ ·)) :
    (t0 :: ts).Pairwise (· ≤ ·) ∧ t0 ≤ (t0 :: ts).getLast (by simp) ∧ (t0 :: ts).getLast (by simp) ≤ t := by
  rw [← List.cons_append, List.pairwise_append] at h
  refine ⟨h.1, ?_, h.2.2 _ (List.getLast_mem _) t (by simp)⟩
  cases ts with
  | nil => simp
  | cons x ts =>
    have := (List.pairwise_cons.1 h.1).1
    exact this _ (by rw [List.getLast_cons (by simp)]; exact List.getLast_mem _)

/-- One more use, without overflow. -/
theorem step_fin {e q : ℚ} {d : Nat} {c : ℚ} (he : 1 ≤ e) (hq : Rep q) (h0 : 0 ≤ q) (hb : q ≤ 4 * c)
    (hd : c + d < 2 ^ 100) :
    (F32.round (d : ℚ)).add ((F32.fin q).div (.fin e)) =
      .fin (nearest (nearest (d : ℚ) + nearest (q / e))) ∧ nearest (nearest (d : ℚ) + nearest (q / e)) ≤ q + 4 * d := by
  have hd0 : (0 : ℚ) ≤ d := by positivity
  have h1 : nearest (d : ℚ) ≤ 2 * d := by
    have := nearest_add (x := 0) (d := d) ⟨0, by simp⟩ le_rfl hd0
    simpa using this
  have hqe : 0 ≤ q / e := div_nonneg h0 (by linarith)
  have h2 : nearest (q / e) ≤ q := by
    have : q / e ≤ q := div_le_self h0 he
    have := nearest_mono hqe this
    rwa [hq.nearest] at this
  have h3 : nearest (nearest (d : ℚ) + nearest (q / e)) ≤ q + 4 * d := by
    have := nearest_add (nearest_rep hqe) (nearest_nonneg hqe) (nearest_nonneg hd0)
    rw [add_comm] at this
    linarith
  have hlt : q + 4 * d < 2 ^ 128 := by
    have : (2 : ℚ) ^ 128 ≥ 4 * 2 ^ 100 := by norm_num
    linarith
  refine ⟨?_, h3⟩
  rw [round_fin (by linarith)]
  have hne : e ≠ 0 := by linarith
  simp only [F32.div, if_neg hne]
  rw [round_fin (by linarith)]
  simp only [F32.add]
  exact round_fin (by linarith)

theorem finite_eavg {e : ℚ} (he : 1 ≤ e) {t0 : Nat} (ts : List Nat) : (t0 :: ts).Pairwise (· ≤ ·) →
    (∀ t ∈ ts, t < 2 ^ 100) →
    (∃ q, (life32 (.fin e) t0 ts).eavg = .fin q ∧ Rep q ∧ 0 ≤ q ∧
      q ≤ 4 * (((t0 :: ts).getLast (by simp) : Nat) - (t0 : ℚ))) ∧
    ∀ ts' t, ts = ts' ++ [t] → ∃ q', (life32 (.fin e) t0 ts').eavg = .fin q' ∧ (life32 (.fin e) t0 ts).eavg =
      .fin (nearest (nearest ((t - (t0 :: ts').getLast (by simp) : Nat) : ℚ) + nearest (q' / e))) := by
  induction ts using List.reverseRecOn with
  | nil => intro _ _; exact ⟨⟨0, rfl, ⟨0, by simp⟩, le_rfl, by simp⟩, fun ts' t h => by simp at h⟩
  | append_singleton ts t ih =>
    intro hp hlt
    obtain ⟨hp1, hp2, hp3⟩ := pairwise_snoc hp
    obtain ⟨⟨q, h1, h2, h3, h4⟩, -⟩ := ih hp1 fun x hx => hlt x (by simp [hx])
    have hl := life32_last (.fin e) t0 ts
    generalize hL : (t0 :: ts).getLast (by simp) = L at hp2 hp3 h4 hl
    have hcast : ((t - L : Nat) : ℚ) = (t : ℚ) - L := Nat.cast_sub hp3
    have hL0 : (t0 : ℚ) ≤ L := by exact_mod_cast hp2
    have htq : (t : ℚ) < 2 ^ 100 := by exact_mod_cast hlt t (by simp)
    have ht0 : (0 : ℚ) ≤ t0 := by positivity
    obtain ⟨g1, g2⟩ := step_fin (d := t - L) he h2 h3 h4 (by rw [hcast]; linarith)
    have g3 : (life32 (.fin e) t0 (ts ++ [t])).eavg = .fin (nearest (nearest ((t - L : Nat) : ℚ) + nearest (q / e))) := by
      rw [life32_snoc]
      simp only [LrfuStats32.touch, h1, life32_exponent, hl, tsDiff32]
      exact g1
    have g4 : 0 ≤ nearest ((t - L : Nat) : ℚ) + nearest (q / e) :=
      add_nonneg (nearest_nonneg (by positivity)) (nearest_nonneg (div_nonneg h3 (by linarith)))
    refine ⟨⟨_, g3, nearest_rep g4, nearest_nonneg g4, ?_⟩, ?_⟩
    · have : (t0 :: (ts ++ [t])).getLast (by simp) = t := by simp
      rw [this]
      rw [hcast] at g2 ⊢
      linarith
    · intro ts' t' h
      obtain ⟨rfl, ht⟩ := List.append_inj' h rfl
      obtain rfl : t = t' := by simpa using ht
      exact ⟨q, h1, by rw [hL]; exact g3⟩

theorem Timed.lt {t0 : Nat} {ts : List Nat} {now n : Nat} (ht : Timed t0 ts now) (hn : now < n) :
    ∀ t ∈ ts ++ [now], t < n := by
  intro t hm
  rcases List.mem_append.1 hm with h | h
  · have ht' : ((t0 :: ts) ++ [now]).Pairwise (· ≤ ·) := ht
    rw [List.pairwise_append] at ht'
    have := ht'.2.2 t (by simp [h]) now (by simp)
    omega
  · simp at h; omega

/-- **C103 (finite).** With an exponent of at least 1 no score overflows, whatever the number of uses. -/
theorem C103_finite {e : ℚ} (he : 1 ≤ e) {t0 : Nat} {ts : List Nat} {now : Nat} (ht : Timed t0 ts now)
    (hn : now < 2 ^ 100) :
    ∃ q, (life32 (.fin e) t0 ts).score now = .fin q ∧ Rep q ∧ 0 ≤ q ∧ q ≤ 4 * ((now : ℚ) - t0) := by
  obtain ⟨⟨q, h1, h2, h3, h4⟩, -⟩ := finite_eavg he (ts ++ [now]) ht (Timed.lt ht hn)
  refine ⟨q, by rw [score_eq]; exact h1, h2, h3, ?_⟩
  have : (t0 :: (ts ++ [now])).getLast (by simp) = now := by simp
  rw [this] at h4
  exact h4

/-- No relative error worse than the unit roundoff. -/
theorem rel0 {x : ℚ} (h : x = 0 ∨ 1 / 2 ^ 126 ≤ x) : nearest x ≤ (1 + u) * x ∧ (1 - u) * x ≤ nearest x := by
  rcases h with rfl | h
  · rw [nearest_zero]; simp
  · exact nearest_rel h

theorem u_bounds : 0 < u ∧ u < 1 := by unfold u; constructor <;> norm_num

/-- One more use: two roundings. -/
theorem step_rel {e q : ℚ} {d : Nat} (he : 1 ≤ e) (he' : e ≤ 2 ^ 126) (hq : q = 0 ∨ 1 ≤ q) :
    nearest (nearest (d : ℚ) + nearest (q / e)) ≤ (1 + u) ^ 2 * (d + q / e) ∧
    (1 - u) ^ 2 * (d + q / e) ≤ nearest (nearest (d : ℚ) + nearest (q / e)) := by
  obtain ⟨u0, u1⟩ := u_bounds
  have e0 : 0 < e := by linarith
  have tiny : (1 : ℚ) / 2 ^ 126 ≤ 1 := by norm_num
  have hd : (d : ℚ) = 0 ∨ 1 / 2 ^ 126 ≤ (d : ℚ) := by
    rcases Nat.eq_zero_or_pos d with rfl | h
    · left; simp
    · right
      have : (1 : ℚ) ≤ d := by exact_mod_cast h
      linarith
  have hqe : q / e = 0 ∨ 1 / 2 ^ 126 ≤ q / e := by
    rcases hq with rfl | h
    · left; simp
    · right
      rw [div_le_div_iff₀ (by positivity) e0]
      nlinarith
  obtain ⟨a1, a2⟩ := rel0 hd
  obtain ⟨b1, b2⟩ := rel0 hqe
  have dn : (0 : ℚ) ≤ d := by positivity
  have qn : 0 ≤ q / e := by
    rcases hqe with h | h
    · rw [h]
    · have : (0 : ℚ) < 1 / 2 ^ 126 := by positivity
      linarith
  have least : ∀ {x : ℚ}, x = 0 ∨ 1 / 2 ^ 126 ≤ x → nearest x = 0 ∨ 1 / 2 ^ 126 ≤ nearest x := by
    intro x hx
    rcases hx with rfl | hx
    · left; exact nearest_zero
    · right
      have := nearest_mono (by positivity) hx
      have r : nearest (1 / 2 ^ 126) = 1 / 2 ^ 126 := by decide +kernel
      rwa [r] at this
  have hs : nearest (d : ℚ) + nearest (q / e) = 0 ∨ 1 / 2 ^ 126 ≤ nearest (d : ℚ) + nearest (q / e) := by
    have n1 := nearest_nonneg dn
    have n2 := nearest_nonneg qn
    rcases least hd with h | h <;> rcases least hqe with h' | h'
    · left; rw [h, h']; simp
    · right; linarith
    · right; linarith
    · right; linarith
  obtain ⟨c1, c2⟩ := rel0 hs
  constructor
  · have : (1 + u) * (nearest (d : ℚ) + nearest (q / e)) ≤ (1 + u) * ((1 + u) * d + (1 + u) * (q / e)) :=
      mul_le_mul_of_nonneg_left (by linarith) (by linarith)
    nlinarith
  · have : (1 - u) * ((1 - u) * d + (1 - u) * (q / e)) ≤ (1 - u) * (nearest (d : ℚ) + nearest (q / e)) :=
      mul_le_mul_of_nonneg_left (by linarith) (by linarith)
    nlinarith

/-- The statistic, exact and computed, for uses at different times.  `lo ≤ hi` are the relative errors. -/
theorem eavg_rel {e : ℚ} (he : 1 ≤ e) (he' : e ≤ 2 ^ 126) {t0 : Nat} (ts : List Nat) : (t0 :: ts).Pairwise (· < ·) →
    (∀ t ∈ ts, t < 2 ^ 100) →
    ∃ q, (life32 (.fin e) t0 ts).eavg = .fin q ∧ (q = 0 ∨ 1 ≤ q) ∧
      (q ≤ (1 + u) ^ (2 * ts.length) * (life e t0 ts).eavg ∧ (1 - u) ^ (2 * ts.length) * (life e t0 ts).eavg ≤ q) ∧
      q ≤ (1 + u) ^ 2 * (life (e / (1 + u) ^ 2) t0 ts).eavg ∧ (1 - u) ^ 2 * (life (e / (1 - u) ^ 2) t0 ts).eavg ≤ q ∧
      0 ≤ (life e t0 ts).eavg := by
  obtain ⟨u0, u1⟩ := u_bounds
  induction ts using List.reverseRecOn with
  | nil => intro _ _; exact ⟨0, rfl, .inl rfl, by simp [life, LrfuStats.new], by simp [life, LrfuStats.new]⟩
  | append_singleton ts t ih =>
    intro hp hlt
    have hp' : (t0 :: (ts ++ [t])).Pairwise (· ≤ ·) := hp.imp fun h => Nat.le_of_lt h
    obtain ⟨hp1, hp2, hp3⟩ := pairwise_snoc hp'
    have hps : (t0 :: ts).Pairwise (· < ·) ∧ (t0 :: ts).getLast (by simp) < t := by
      rw [← List.cons_append, List.pairwise_append] at hp
      exact ⟨hp.1, hp.2.2 _ (List.getLast_mem _) t (by simp)⟩
    obtain ⟨q, h1, h2, ⟨h3, h4⟩, h5, h6, h7⟩ := ih hps.1 fun x hx => hlt x (by simp [hx])
    obtain ⟨-, hstep⟩ := finite_eavg he (ts ++ [t]) hp' hlt
    obtain ⟨q', g1, g2⟩ := hstep ts t rfl
    rw [h1] at g1
    cases g1
    have hlast := fun e => (life_spec e t0 ts).1
    generalize hL : (t0 :: ts).getLast (by simp) = L at hp2 hp3 hps hlast g2
    have hcast : ((t - L : Nat) : ℚ) = (t : ℚ) - L := Nat.cast_sub hp3
    obtain ⟨s1, s2⟩ := step_rel (d := t - L) he he' h2
    have hd : (1 : ℚ) ≤ ((t - L : Nat) : ℚ) := by
      have : 1 ≤ t - L := by omega
      exact_mod_cast this
    have e0 : 0 < e := by linarith
    have hsnoc : ∀ e', (life e' t0 (ts ++ [t])).eavg = ((t - L : Nat) : ℚ) + (life e' t0 ts).eavg / e' := by
      intro e'
      rw [life_snoc, hcast]
      simp only [LrfuStats.touch, hlast, life_exponent, tsDiff]
    generalize hdd : ((t - L : Nat) : ℚ) = d at *
    have hq0 : 0 ≤ q := by rcases h2 with h | h <;> linarith
    refine ⟨_, g2, .inr ?_, ⟨?_, ?_⟩, ?_, ?_, ?_⟩
    · -- at least 1
      have n1 : nearest 1 ≤ nearest d := nearest_mono (by norm_num) hd
      have n2 : nearest (1 : ℚ) = 1 := by decide +kernel
      rw [n2] at n1
      have n3 : 0 ≤ nearest (q / e) := nearest_nonneg (div_nonneg hq0 e0.le)
      have := nearest_mono (by norm_num) (by linarith : (1 : ℚ) ≤ nearest d + nearest (q / e))
      rwa [n2] at this
    · rw [hsnoc, show 2 * (ts ++ [t]).length = 2 * ts.length + 2 by simp; omega, pow_add]
      refine s1.trans ?_
      have k1 : (1 : ℚ) ≤ (1 + u) ^ (2 * ts.length) := one_le_pow₀ (by linarith)
      have k2 : q / e ≤ (1 + u) ^ (2 * ts.length) * ((life e t0 ts).eavg / e) := by
        rw [← mul_div_assoc]; exact div_le_div_of_nonneg_right h3 e0.le
      have k3 : d + q / e ≤ (1 + u) ^ (2 * ts.length) * (d + (life e t0 ts).eavg / e) := by nlinarith
      have := mul_le_mul_of_nonneg_left k3 (by positivity : 0 ≤ (1 + u) ^ 2)
      linarith
    · rw [hsnoc, show 2 * (ts ++ [t]).length = 2 * ts.length + 2 by simp; omega, pow_add]
      refine le_trans ?_ s2
      have k1 : (1 - u) ^ (2 * ts.length) ≤ (1 : ℚ) := pow_le_one₀ (by linarith) (by linarith)
      have k2 : (1 - u) ^ (2 * ts.length) * ((life e t0 ts).eavg / e) ≤ q / e := by
        rw [← mul_div_assoc]; exact div_le_div_of_nonneg_right h4 e0.le
      have k3 : (1 - u) ^ (2 * ts.length) * (d + (life e t0 ts).eavg / e) ≤ d + q / e := by nlinarith
      have := mul_le_mul_of_nonneg_left k3 (by positivity : 0 ≤ (1 - u) ^ 2)
      linarith
    · rw [hsnoc]
      refine s1.trans (mul_le_mul_of_nonneg_left ?_ (by positivity))
      have : q / e ≤ (1 + u) ^ 2 * (life (e / (1 + u) ^ 2) t0 ts).eavg / e := div_le_div_of_nonneg_right h5 e0.le
      have k : (life (e / (1 + u) ^ 2) t0 ts).eavg / (e / (1 + u) ^ 2) =
          (1 + u) ^ 2 * (life (e / (1 + u) ^ 2) t0 ts).eavg / e := by
        rw [div_div_eq_mul_div]; ring
      rw [k]; linarith
    · rw [hsnoc]
      refine le_trans (mul_le_mul_of_nonneg_left ?_ (by positivity)) s2
      have : (1 - u) ^ 2 * (life (e / (1 - u) ^ 2) t0 ts).eavg / e ≤ q / e := div_le_div_of_nonneg_right h6 e0.le
      have k : (life (e / (1 - u) ^ 2) t0 ts).eavg / (e / (1 - u) ^ 2) =
          (1 - u) ^ 2 * (life (e / (1 - u) ^ 2) t0 ts).eavg / e := by
        rw [div_div_eq_mul_div]; ring
      rw [k]; linarith
    · rw [hsnoc]
      have := div_nonneg h7 e0.le
      linarith

/-- Uses at different times, up to now. -/
def Apart (t0 : Nat) (ts : List Nat) (now : Nat) : Prop := (t0 :: ts ++ [now]).Pairwise (· < ·)

theorem Apart.timed {t0 : Nat} {ts : List Nat} {now : Nat} (h : Apart t0 ts now) : Timed t0 ts now :=
  List.Pairwise.imp (fun h => Nat.le_of_lt h) h

/-- **C103 (error).** The score of an element used `n` times since it was made is off the exact one by a factor of
`(1 ± 2⁻²⁴)^(2n + 2)` at most. -/
theorem C103_error_partial {e : ℚ} (he : 1 ≤ e) (he' : e ≤ 2 ^ 126) {t0 : Nat} {ts : List Nat} {now : Nat}
    (ht : Apart t0 ts now) (hn : now < 2 ^ 100) :
    ∃ q, (life32 (.fin e) t0 ts).score now = .fin q ∧
      (1 - u) ^ (2 * ts.length + 2) * (life e t0 ts).score now ≤ q ∧
      q ≤ (1 + u) ^ (2 * ts.length + 2) * (life e t0 ts).score now := by
  obtain ⟨q, h1, -, ⟨h2, h3⟩, -⟩ := eavg_rel he he' (ts ++ [now]) ht (Timed.lt ht.timed hn)
  have hl : 2 * (ts ++ [now]).length = 2 * ts.length + 2 := by simp; omega
  rw [hl, ← exact_score_eq] at h2 h3
  exact ⟨q, by rw [score_eq]; exact h1, h3, h2⟩

/-- **C103 (exponent).** However often the element was used, its score is, up to two roundings, the exact score for
an exponent within `(1 ± 2⁻²⁴)²` of the one given. -/
theorem C103_exponent_partial {e : ℚ} (he : 1 ≤ e) (he' : e ≤ 2 ^ 126) {t0 : Nat} {ts : List Nat} {now : Nat}
    (ht : Apart t0 ts now) (hn : now < 2 ^ 100) :
    ∃ q, (life32 (.fin e) t0 ts).score now = .fin q ∧
      (1 - u) ^ 2 * (life (e / (1 - u) ^ 2) t0 ts).score now ≤ q ∧
      q ≤ (1 + u) ^ 2 * (life (e / (1 + u) ^ 2) t0 ts).score now := by
  obtain ⟨q, h1, -, -, h2, h3, -⟩ := eavg_rel he he' (ts ++ [now]) ht (Timed.lt ht.timed hn)
  rw [← exact_score_eq] at h2 h3
  exact ⟨q, by rw [score_eq]; exact h1, h3, h2⟩

/-- **C103 (ranking).** Elements whose exact scores differ by more than these factors are ranked as they should. -/
theorem C103_rank_partial {e : ℚ} (he : 1 ≤ e) (he' : e ≤ 2 ^ 126) {a b : Nat} {as bs : List Nat} {now : Nat}
    (ha : Apart a as now) (hb : Apart b bs now) (hn : now < 2 ^ 100)
    (h : (1 + u) ^ (2 * as.length + 2) * (life e a as).score now < (1 - u) ^ (2 * bs.length + 2) * (life e b bs).score now) :
    ((life32 (.fin e) a as).score now).partialCmp ((life32 (.fin e) b bs).score now) = some .lt := by
  obtain ⟨p, h1, -, h2⟩ := C103_error_partial he he' ha hn
  obtain ⟨q, h3, h4, -⟩ := C103_error_partial he he' hb hn
  rw [h1, h3]
  exact congrArg some (compare_lt_iff_lt.2 (by linarith))

/-! ## Recency -/

/-- Numbers from 2²⁴ on are even. -/
theorem rep_even {x : ℚ} (h : Rep x) (hx : 2 ^ 24 ≤ x) : ∃ j : ℤ, x = 2 * j := by
  obtain ⟨n, hn⟩ := h
  have hlog : 24 ≤ Int.log 2 x := by
    have h1 := log_le (x := (2 : ℚ) ^ (24 : ℤ)) (by positivity) (y := x) (by exact_mod_cast hx)
    have h2 : Int.log 2 ((2 : ℚ) ^ (24 : ℤ)) = 24 := by
      exact_mod_cast Int.log_zpow (R := ℚ) (b := 2) (by norm_num) 24
    omega
  obtain ⟨j, hj⟩ := Int.eq_ofNat_of_zero_le (show 0 ≤ Int.log 2 x - 24 by omega)
  refine ⟨n * 2 ^ j, ?_⟩
  rw [hn]
  unfold ulp
  rw [max_eq_left (by omega), show Int.log 2 x - 23 = (j : ℤ) + 1 by omega, zpow_add₀ (by norm_num)]
  push_cast
  rw [zpow_natCast]
  ring

/-- A number of type `f32` that is an integer, plus at most a half. -/
theorem nearest_near {d d' : Nat} {f : ℚ} (h : d < d') (hf : 0 ≤ f) (hf' : f ≤ 1 / 2) :
    nearest (nearest (d : ℚ) + f) ≤ nearest (d' : ℚ) := by
  have hd0 : (0 : ℚ) ≤ d := by positivity
  have hdd : (d : ℚ) + 1 ≤ d' := by exact_mod_cast h
  rcases Nat.lt_or_ge d (2 ^ 24) with hlt | hge
  · rw [(nat_rep hlt.le).nearest]
    exact nearest_mono (by linarith) (by linarith)
  · have hq : (2 : ℚ) ^ 24 ≤ d := by exact_mod_cast hge
    have h24 : (2 : ℚ) ^ 24 ≤ nearest (d : ℚ) := by
      have := nearest_mono (by positivity) hq
      have r : nearest ((2 : ℚ) ^ 24) = 2 ^ 24 := by decide +kernel
      rwa [r] at this
    have hrep := nearest_rep hd0
    have hn0 := nearest_nonneg hd0
    have h1 := nearest_add hrep hn0 hf
    have h2 : nearest (d : ℚ) ≤ nearest (nearest (d : ℚ) + f) := by
      have := nearest_mono hn0 (by linarith : nearest (d : ℚ) ≤ nearest (d : ℚ) + f)
      rwa [hrep.nearest] at this
    obtain ⟨i, hi⟩ := rep_even hrep h24
    obtain ⟨j, hj⟩ := rep_even (nearest_rep (by linarith : 0 ≤ nearest (d : ℚ) + f)) (by linarith)
    have h3 : nearest (nearest (d : ℚ) + f) ≤ nearest (d : ℚ) := by
      rw [hj] at h1 ⊢
      rw [hi] at h1 ⊢
      have h4 : (2 : ℚ) * j ≤ 2 * i + 1 := by linarith
      have h5 : 2 * j ≤ 2 * i + 1 := by exact_mod_cast h4
      have h6 : j ≤ i := by omega
      have : (j : ℚ) ≤ i := by exact_mod_cast h6
      linarith
    exact h3.trans (nearest_mono hd0 (by linarith))

/-- **C103 (recency).** With an exponent more than 8 times the time elapsed, the element last used earlier is never
ranked as the more recent one, however long ago they were used and however often. -/
theorem C103_recency_partial {e : ℚ} {a b : Nat} {as bs : List Nat} {now : Nat} (ha : Timed a as now) (hb : Timed b bs now)
    (hn : now < 2 ^ 100) (he : 8 * ((now : ℚ) + 1) ≤ e)
    (h : (a :: as).getLast (by simp) < (b :: bs).getLast (by simp)) :
    ((life32 (.fin e) a as).score now).partialCmp ((life32 (.fin e) b bs).score now) = some .gt ∨
    ((life32 (.fin e) a as).score now).partialCmp ((life32 (.fin e) b bs).score now) = some .eq := by
  have hn0 : (0 : ℚ) ≤ now := by positivity
  have he1 : 1 ≤ e := by linarith
  have key : ∀ {t0 : Nat} {ts : List Nat}, Timed t0 ts now → ∃ q, 0 ≤ q ∧ q ≤ 4 * (now : ℚ) ∧
      (life32 (.fin e) t0 ts).score now =
        .fin (nearest (nearest ((now - (t0 :: ts).getLast (by simp) : Nat) : ℚ) + nearest (q / e))) := by
    intro t0 ts ht
    obtain ⟨-, hstep⟩ := finite_eavg he1 (ts ++ [now]) ht (Timed.lt ht hn)
    obtain ⟨q, g1, g2⟩ := hstep ts now rfl
    obtain ⟨hp1, hp2, hp3⟩ := pairwise_snoc (t := now) ht
    obtain ⟨⟨q', g3, g4, g5, g6⟩, -⟩ := finite_eavg he1 ts hp1 fun x hx => Timed.lt ht hn x (by simp [hx])
    rw [g1] at g3
    cases g3
    refine ⟨q, g5, ?_, by rw [score_eq]; exact g2⟩
    have : ((t0 :: ts).getLast (by simp) : ℚ) ≤ now := by exact_mod_cast hp3
    have : (0 : ℚ) ≤ t0 := by positivity
    linarith
  obtain ⟨p, p0, p1, hp⟩ := key ha
  obtain ⟨q, q0, q1, hq⟩ := key hb
  obtain ⟨-, -, hb3⟩ := pairwise_snoc (t := now) hb
  have hf : nearest (q / e) ≤ 1 / 2 := by
    have h1 : q / e ≤ 1 / 2 := by
      rw [div_le_div_iff₀ (by linarith) (by norm_num)]; linarith
    have h2 := nearest_mono (div_nonneg q0 (by linarith)) h1
    have h3 : nearest (1 / 2) = 1 / 2 := by decide +kernel
    rwa [h3] at h2
  have h1 := nearest_near (d := now - (b :: bs).getLast (by simp)) (d' := now - (a :: as).getLast (by simp)) (by omega)
    (nearest_nonneg (div_nonneg q0 (by linarith))) hf
  have hd0 : (0 : ℚ) ≤ ((now - (a :: as).getLast (by simp) : Nat) : ℚ) := by positivity
  have h2 : nearest ((now - (a :: as).getLast (by simp) : Nat) : ℚ) ≤
      nearest (nearest ((now - (a :: as).getLast (by simp) : Nat) : ℚ) + nearest (p / e)) := by
    have h3 := nearest_mono (nearest_nonneg hd0)
      (le_add_of_nonneg_right (nearest_nonneg (div_nonneg p0 (by linarith : (0 : ℚ) ≤ e))))
    rwa [(nearest_rep hd0).nearest] at h3
  rw [hp, hq]
  have h3 := h1.trans h2
  rcases h3.lt_or_eq with h4 | h4
  · left; exact congrArg some (compare_gt_iff_gt.2 h4)
  · right; exact congrArg some (compare_eq_iff_eq.2 h4.symm)

/-! ## Comparisons -/

/-- A cell made at `t0` with exponent `e` and accessed at `ts`. -/
def cell32 {V : Type} (v : V) (e : F32) (t0 : Nat) (ts : List Nat) : LrfuCell32 V := ⟨v, life32 e t0 ts⟩

/-- **C103 (cells).** A cell is made unless the exponent is a number not above 0; accesses give the statistics above. -/
theorem C103_cells {V : Type} (v : V) (e : F32) (t0 : Nat) (ts : List Nat) :
    ((∃ q, e = .fin q ∧ q ≤ 0) → LrfuCell32.new v e t0 = .panic) ∧
    ((∀ q, e = .fin q → 0 < q) → ∃ c, LrfuCell32.new v e t0 = .ok c ∧
      ts.foldl (fun c t => c.access t id) c = cell32 v e t0 ts) := by
  constructor
  · rintro ⟨q, rfl, h⟩
    simp [LrfuCell32.new, F32.nonPos, h]
  · intro h
    refine ⟨⟨v, .new e t0⟩, ?_, ?_⟩
    · cases e with
      | fin q => simp [LrfuCell32.new, F32.nonPos, not_le.2 (h q rfl)]
      | _ => rfl
    · induction ts using List.reverseRecOn with
      | nil => rfl
      | append_singleton ts t ih =>
        rw [List.foldl_append, ih]
        simp [cell32, LrfuCell32.access, life32_snoc]

/-- Scores are numbers or infinite for every exponent accepted other than NaN. -/
theorem score_not_nan {e : F32} (he : e = .inf ∨ ∃ q, e = .fin q ∧ 0 < q) (t0 : Nat) (ts : List Nat)
    (hlt : ∀ t ∈ ts, t < 2 ^ 100) : (life32 e t0 ts).eavg ≠ .nan ∧ (e = .inf → (life32 e t0 ts).eavg ≠ .inf) := by
  have hr : ∀ x, F32.round x ≠ .nan := by intro x; unfold F32.round; split <;> simp
  induction ts using List.reverseRecOn with
  | nil => exact ⟨by simp [life32, LrfuStats32.new], fun _ => by simp [life32, LrfuStats32.new]⟩
  | append_singleton ts t ih =>
    obtain ⟨h1, h2⟩ := ih fun x hx => hlt x (by simp [hx])
    rw [life32_snoc]
    simp only [LrfuStats32.touch, life32_exponent, tsDiff32]
    generalize (life32 e t0 ts).eavg = x at h1 h2
    have hd : ∀ L : Nat, nearest ((t - L : Nat) : ℚ) < 2 ^ 102 ∧ 0 ≤ nearest ((t - L : Nat) : ℚ) ∧
        Rep (nearest ((t - L : Nat) : ℚ)) := by
      intro L
      have d0 : (0 : ℚ) ≤ ((t - L : Nat) : ℚ) := by positivity
      have := nearest_add (x := 0) (d := ((t - L : Nat) : ℚ)) ⟨0, by simp⟩ le_rfl d0
      have h3 : ((t - L : Nat) : ℚ) < 2 ^ 100 := by
        have : t - L < 2 ^ 100 := by have := hlt t (by simp); omega
        exact_mod_cast this
      have h4 : (2 : ℚ) ^ 102 = 4 * 2 ^ 100 := by norm_num
      refine ⟨?_, nearest_nonneg d0, nearest_rep d0⟩
      rw [zero_add] at this
      linarith [nearest_nonneg d0]
    obtain ⟨d1, d2, d3⟩ := hd (life32 e t0 ts).last
    have big : (2 : ℚ) ^ 102 < 2 ^ 128 := by norm_num
    rw [round_fin (by linarith)]
    rcases he with rfl | ⟨q, rfl, hq⟩
    · obtain ⟨y, rfl⟩ : ∃ y, x = .fin y := by
        cases x with
        | nan => exact absurd rfl h1
        | inf => exact absurd rfl (h2 rfl)
        | fin y => exact ⟨y, rfl⟩
      simp only [F32.div, F32.add, add_zero]
      rw [round_fin (by rw [d3.nearest]; linarith)]
      exact ⟨by simp, fun _ => by simp⟩
    · refine ⟨?_, fun h => by cases h⟩
      cases x with
      | nan => exact absurd rfl h1
      | inf => simp [F32.div, F32.add]
      | fin y =>
        simp only [F32.div, if_neg hq.ne']
        unfold F32.round
        split
        · simp [F32.add]
        · simp only [F32.add]; exact hr _

/-- **C103 (order).** For every exponent accepted other than NaN, at one instant the comparison is reflexive, symmetric
and transitive: a consistent total order, up to ties. -/
theorem C103_order {V : Type} {e : F32} (he : e = .inf ∨ ∃ q, e = .fin q ∧ 0 < q) (now : Nat) (hn : now < 2 ^ 100)
    (x y z : V) (a b c : Nat) (as bs cs : List Nat) (ha : Timed a as now) (hb : Timed b bs now) (hc : Timed c cs now) :
    (cell32 x e a as).cmp now now (cell32 x e a as) = .eq ∧
    (cell32 x e a as).cmp now now (cell32 y e b bs) = ((cell32 y e b bs).cmp now now (cell32 x e a as)).swap ∧
    ((cell32 x e a as).cmp now now (cell32 y e b bs) ≠ .gt → (cell32 y e b bs).cmp now now (cell32 z e c cs) ≠ .gt →
      (cell32 x e a as).cmp now now (cell32 z e c cs) ≠ .gt) := by
  have key : ∀ {t0 : Nat} {ts : List Nat}, Timed t0 ts now → (life32 e t0 ts).score now ≠ .nan := by
    intro t0 ts ht
    rw [score_eq]
    exact (score_not_nan he t0 _ (Timed.lt ht hn)).1
  have h1 := key ha
  have h2 := key hb
  have h3 := key hc
  simp only [LrfuCell32.cmp, cell32]
  generalize (life32 e a as).score now = p at *
  generalize (life32 e b bs).score now = q at *
  generalize (life32 e c cs).score now = r at *
  refine ⟨?_, ?_, ?_⟩
  · cases p <;> simp_all [F32.partialCmp]
  · cases p with
    | nan => exact absurd rfl h1
    | inf => cases q with
      | nan => exact absurd rfl h2
      | _ => rfl
    | fin p => cases q with
      | nan => exact absurd rfl h2
      | inf => rfl
      | fin q => exact Std.OrientedCmp.eq_swap (cmp := (compare : ℚ → ℚ → Ordering))
  · cases p <;> cases q <;> cases r <;> simp_all [F32.partialCmp, compare_gt_iff_gt]
    intro g1 g2; linarith

/-- **C103 (NaN).** An exponent that is not a number is accepted, and then all cells are equal, whatever their uses. -/
theorem C103_nan {V : Type} (v w : V) (t0 t1 : Nat) (ts us : List Nat) (t t' : Nat) :
    LrfuCell32.new v .nan t0 = .ok (cell32 v .nan t0 []) ∧
    (cell32 v .nan t0 ts).cmp t t' (cell32 w .nan t1 us) = .eq := by
  refine ⟨rfl, ?_⟩
  have : ∀ (t0 : Nat) (ts : List Nat) (t : Nat), (life32 .nan t0 ts).score t = .nan := by
    intro t0 ts t
    simp only [LrfuStats32.score, life32_exponent]
    cases (life32 .nan t0 ts).eavg <;> simp only [F32.div] <;> cases tsDiff32 t (life32 .nan t0 ts).last <;> rfl
  simp [LrfuCell32.cmp, cell32, this, F32.partialCmp]

/-! ## What does not hold -/

/-- Ages that differ by one are the same from 2²⁴ on: an element and a later one compare equal. -/
theorem C103_ties : (life 1 0 []).score (2 ^ 24 + 1) > (life 1 1 []).score (2 ^ 24 + 1) ∧
    ((life32 (.fin 1) 0 []).score (2 ^ 24 + 1)).partialCmp ((life32 (.fin 1) 1 []).score (2 ^ 24 + 1)) = some .eq := by
  constructor <;> decide +kernel

/-- The element of smaller exact score is evicted first. -/
theorem C103_inverted : (life 3 0 [50331652]).score 50331653 < (life 3 1 [50331651]).score 50331653 ∧
    ((life32 (.fin 3) 0 [50331652]).score 50331653).partialCmp ((life32 (.fin 3) 1 [50331651]).score 50331653) =
      some .gt := by
  constructor <;> decide +kernel

theorem C103_false : ¬ C103_full := by
  intro h
  have h1 := h 3 0 1 [50331652] [50331651] 50331653 (by norm_num) (by norm_num) ⟨3 * 2 ^ 22, by decide +kernel⟩
    (by unfold Timed; decide) (by unfold Timed; decide) (by norm_num)
  rw [C103_inverted.2, compare_lt_iff_lt.2 C103_inverted.1] at h1
  cases h1

/-- With an exponent below 1 scores overflow: elements used often at the beginning, and others, are all infinite. -/
theorem C103_overflow : (life32 (.fin (1 / 2)) 0 (List.range' 1 130)).score 131 = .inf ∧
    ((life32 (.fin (1 / 2)) 0 (List.range' 1 130)).score 131).partialCmp
      ((life32 (.fin (1 / 2)) 0 (List.range' 1 129)).score 131) = some .eq := by
  constructor <;> decide +kernel

/-! ## Non-vacuity -/

example : Apart 0 [2, 5, 6] 9 ∧ Timed 0 [2, 5, 5] 9 := ⟨by unfold Apart; decide, by unfold Timed; decide⟩

/-- Used at 2 and 3, or never: the ranking of the example of C71, in single precision. -/
example : ((life32 (.fin 2) 0 [2, 3]).score 5).partialCmp ((life32 (.fin 2) 1 []).score 5) = some .lt :=
  C103_rank_partial (by norm_num) (by norm_num) (by unfold Apart; decide) (by unfold Apart; decide) (by norm_num)
    (by norm_num [life, LrfuStats.score, LrfuStats.touch, LrfuStats.new, tsDiff, u])

example : Rep 2 ∧ Rep (1 / 2 ^ 149) ∧ (life32 (.fin 3) 0 [1, 3]).score 4 = .fin (1864135 / 1048576) := by
  refine ⟨⟨2 ^ 23, by decide +kernel⟩, ⟨1, by decide +kernel⟩, by decide +kernel⟩

end Byoc.F32Props
