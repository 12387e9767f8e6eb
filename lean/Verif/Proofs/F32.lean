import Verif.Model.F32
import Mathlib.Tactic.Linarith
import Mathlib.Tactic.NormNum
import Mathlib.Tactic.Positivity
import Mathlib.Tactic.FieldSimp
import Mathlib.Tactic.Ring

/-! Rounding to single precision. -/

namespace Byoc.F32

/-- The unit roundoff. -/
def u : ℚ := 1 / 2 ^ 24

theorem halfEven_bounds (x : ℚ) : (halfEven x : ℚ) - x ≤ 1 / 2 ∧ x - halfEven x ≤ 1 / 2 := by
  have h1 := Int.floor_le x
  have h2 := Int.lt_floor_add_one x
  unfold halfEven
  split
  · constructor <;> linarith
  · split
    · push_cast; constructor <;> linarith
    · split
      · constructor <;> linarith
      · push_cast; constructor <;> linarith

/-- No integer is nearer. -/
theorem halfEven_le {x : ℚ} {n : ℤ} (h : x ≤ n) : halfEven x ≤ n := by
  have h1 : ⌊x⌋ ≤ n := by
    have := Int.floor_le x
    exact_mod_cast this.trans h
  rcases lt_or_eq_of_le h1 with h2 | h2
  · unfold halfEven
    split
    · omega
    · split
      · omega
      · split <;> omega
  · have hx : x = n := le_antisymm h (by rw [← h2]; exact Int.floor_le x)
    unfold halfEven
    rw [if_pos (by rw [h2, hx]; norm_num)]
    omega

theorem le_halfEven {x : ℚ} {n : ℤ} (h : (n : ℚ) ≤ x) : n ≤ halfEven x := by
  have h1 : n ≤ ⌊x⌋ := Int.le_floor.2 h
  unfold halfEven
  split
  · omega
  · split
    · omega
    · split <;> omega

theorem halfEven_int (n : ℤ) : halfEven (n : ℚ) = n := le_antisymm (halfEven_le le_rfl) (le_halfEven le_rfl)

theorem halfEven_mono {x y : ℚ} (h : x ≤ y) : halfEven x ≤ halfEven y := by
  by_cases hf : ⌊x⌋ = ⌊y⌋
  · unfold halfEven
    rw [hf]
    have : x - (⌊y⌋ : ℚ) ≤ y - ⌊y⌋ := by linarith
    split
    · split
      · exact le_rfl
      · split
        · omega
        · split <;> omega
    · rename_i g1
      rw [if_neg (by linarith : ¬ y - (⌊y⌋ : ℚ) < 1 / 2)]
      split
      · rename_i g2
        rw [if_pos (by linarith : (1 : ℚ) / 2 < y - ⌊y⌋)]
      · split
        · split
          · omega
          · exact le_rfl
        · split <;> exact le_rfl
  · have h1 : ⌊x⌋ + 1 ≤ ⌊y⌋ := by
      have := Int.floor_le_floor h
      omega
    have h2 : halfEven x ≤ ⌊x⌋ + 1 := halfEven_le (by push_cast; exact (Int.lt_floor_add_one x).le)
    have h3 : ⌊y⌋ ≤ halfEven y := le_halfEven (Int.floor_le y)
    omega

theorem ulp_pos (x : ℚ) : 0 < ulp x := zpow_pos (by norm_num) _

theorem nearest_bounds (x : ℚ) : nearest x - x ≤ ulp x / 2 ∧ x - nearest x ≤ ulp x / 2 := by
  have hu := ulp_pos x
  obtain ⟨h1, h2⟩ := halfEven_bounds (x / ulp x)
  have e : x = x / ulp x * ulp x := by field_simp
  unfold nearest
  constructor
  · have := mul_le_mul_of_nonneg_right h1 hu.le
    rw [sub_mul, ← e] at this
    linarith
  · have := mul_le_mul_of_nonneg_right h2 hu.le
    rw [sub_mul, ← e] at this
    linarith

/-- A multiple of the distance between numbers. -/
def Rep (x : ℚ) : Prop := ∃ n : ℤ, x = n * ulp x

theorem Rep.nearest {x : ℚ} (h : Rep x) : nearest x = x := by
  obtain ⟨n, h⟩ := h
  have hu := ulp_pos x
  have : x / ulp x = n := by
    rw [div_eq_iff hu.ne']; exact h
  unfold F32.nearest
  rw [this, halfEven_int]
  exact h.symm

/-- Numbers in the range of `x` are multiples of `ulp x`, whatever side of `x`. -/
theorem nearest_le_of {x : ℚ} {y : ℚ} {n : ℤ} (hy : y = n * ulp x) (h : x ≤ y) : nearest x ≤ y := by
  have hu := ulp_pos x
  have : halfEven (x / ulp x) ≤ n := halfEven_le (by rw [div_le_iff₀ hu, ← hy]; exact h)
  have : ((halfEven (x / ulp x) : ℤ) : ℚ) ≤ n := by exact_mod_cast this
  unfold nearest
  rw [hy]
  exact mul_le_mul_of_nonneg_right this hu.le

theorem le_nearest_of {x : ℚ} {y : ℚ} {n : ℤ} (hy : y = n * ulp x) (h : y ≤ x) : y ≤ nearest x := by
  have hu := ulp_pos x
  have : n ≤ halfEven (x / ulp x) := le_halfEven (by rw [le_div_iff₀ hu, ← hy]; exact h)
  have : (n : ℚ) ≤ (halfEven (x / ulp x) : ℤ) := by exact_mod_cast this
  unfold nearest
  rw [hy]
  exact mul_le_mul_of_nonneg_right this hu.le

/-- Powers of two not below `ulp x` are multiples of it. -/
theorem pow_mult {x : ℚ} {k : ℤ} (h : max (Int.log 2 x - 23) (-149) ≤ k) : ∃ n : ℤ, (2 : ℚ) ^ k = n * ulp x := by
  obtain ⟨j, hj⟩ := Int.eq_ofNat_of_zero_le (sub_nonneg.2 h)
  refine ⟨2 ^ j, ?_⟩
  unfold ulp
  push_cast
  rw [← zpow_natCast, ← zpow_add₀ (by norm_num)]
  congr 1
  omega

theorem log_le {x y : ℚ} (hx : 0 < x) (h : x ≤ y) : Int.log 2 x ≤ Int.log 2 y := Int.log_mono_right hx h

theorem self_lt (x : ℚ) : x < 2 ^ (Int.log 2 x + 1) := by
  have := Int.lt_zpow_succ_log_self (b := 2) (by norm_num) x
  exact_mod_cast this

theorem le_self {x : ℚ} (h : 0 < x) : 2 ^ Int.log 2 x ≤ x := by
  have := Int.zpow_log_le_self (b := 2) (by norm_num) h
  exact_mod_cast this

theorem nearest_zero : nearest 0 = 0 := by
  unfold nearest
  rw [zero_div]
  have : halfEven 0 = 0 := by exact_mod_cast halfEven_int 0
  rw [this]; simp

theorem nearest_nonneg {x : ℚ} (h : 0 ≤ x) : 0 ≤ nearest x := le_nearest_of (n := 0) (by simp) h

theorem nearest_mono {x y : ℚ} (hx : 0 ≤ x) (h : x ≤ y) : nearest x ≤ nearest y := by
  rcases hx.eq_or_lt with rfl | hx
  · rw [nearest_zero]; exact nearest_nonneg h
  have hy : 0 < y := hx.trans_le h
  have hl := log_le hx h
  by_cases he : ulp x = ulp y
  · unfold nearest
    rw [he]
    have h1 : halfEven (x / ulp y) ≤ halfEven (y / ulp y) :=
      halfEven_mono (div_le_div_of_nonneg_right h (ulp_pos y).le)
    have h2 : ((halfEven (x / ulp y) : ℤ) : ℚ) ≤ (halfEven (y / ulp y) : ℤ) := by exact_mod_cast h1
    exact mul_le_mul_of_nonneg_right h2 (ulp_pos y).le
  · -- another power of two in between
    have hne : max (Int.log 2 x - 23) (-149) ≠ max (Int.log 2 y - 23) (-149) := by
      intro h0; exact he (by unfold ulp; rw [h0])
    have hlt : Int.log 2 x + 1 ≤ Int.log 2 y := by
      by_contra hc
      have : Int.log 2 x = Int.log 2 y := by omega
      exact hne (by rw [this])
    have hy149 : -126 < Int.log 2 y := by
      by_contra hc
      apply hne
      rw [max_eq_right (by omega), max_eq_right (by omega)]
    obtain ⟨n, hn⟩ := pow_mult (x := x) (k := Int.log 2 y) (by omega)
    obtain ⟨m, hm⟩ := pow_mult (x := y) (k := Int.log 2 y) (by omega)
    have h1 : nearest x ≤ 2 ^ Int.log 2 y := by
      refine nearest_le_of hn ?_
      exact (self_lt x).le.trans (zpow_le_zpow_right₀ (by norm_num) hlt)
    exact h1.trans (le_nearest_of hm (le_self hy))

/-- Results of rounding are numbers of type `f32`. -/
theorem nearest_rep {x : ℚ} (hx : 0 ≤ x) : Rep (nearest x) := by
  rcases hx.eq_or_lt with rfl | hx
  · rw [nearest_zero]; exact ⟨0, by simp⟩
  have h0 := nearest_nonneg hx.le
  rcases h0.eq_or_lt with h0 | h0
  · rw [← h0]; exact ⟨0, by simp⟩
  by_cases hl : Int.log 2 (nearest x) ≤ Int.log 2 x
  · -- a multiple of a larger unit
    obtain ⟨n, hn⟩ : ∃ n : ℤ, ulp x = n * ulp (nearest x) := pow_mult (k := max (Int.log 2 x - 23) (-149)) (by omega)
    refine ⟨halfEven (x / ulp x) * n, ?_⟩
    push_cast
    rw [mul_assoc, ← hn]
    rfl
  · -- the next power of two
    have h2 : nearest x ≤ 2 ^ (max (Int.log 2 x + 1) (-149)) := by
      obtain ⟨n, hn⟩ := pow_mult (x := x) (k := max (Int.log 2 x + 1) (-149)) (by omega)
      refine nearest_le_of hn ((self_lt x).le.trans (zpow_le_zpow_right₀ (by norm_num) (by omega)))
    have h3 : 2 ^ Int.log 2 (nearest x) ≤ nearest x := le_self h0
    have h4 : (2 : ℚ) ^ (Int.log 2 x + 1) ≤ 2 ^ Int.log 2 (nearest x) := zpow_le_zpow_right₀ (by norm_num) (by omega)
    by_cases h149 : -149 ≤ Int.log 2 x + 1
    · rw [max_eq_left h149] at h2
      have h5 : nearest x = 2 ^ (Int.log 2 x + 1) := le_antisymm h2 (h4.trans h3)
      have h6 : Int.log 2 (nearest x) = Int.log 2 x + 1 := by
        rw [h5]; exact_mod_cast Int.log_zpow (R := ℚ) (b := 2) (by norm_num) (Int.log 2 x + 1)
      obtain ⟨n, hn⟩ := pow_mult (x := nearest x) (k := Int.log 2 x + 1) (by omega)
      exact ⟨n, by rw [← hn]; exact h5⟩
    · -- at most the least number
      have hu : ulp (nearest x) = ulp x := by
        have : nearest x ≤ 2 ^ (-149 : ℤ) := h2.trans (zpow_le_zpow_right₀ (by norm_num) (by omega))
        have : Int.log 2 (nearest x) ≤ -149 := by
          have h7 := h3.trans this
          exact (zpow_le_zpow_iff_right₀ (by norm_num : (1 : ℚ) < 2)).1 h7
        unfold ulp
        rw [max_eq_right (by omega), max_eq_right (by omega)]
      exact ⟨halfEven (x / ulp x), by rw [hu]; rfl⟩

/-- The relative error, above the least normal number. -/
theorem nearest_rel {x : ℚ} (h : 1 / 2 ^ 126 ≤ x) : nearest x ≤ (1 + u) * x ∧ (1 - u) * x ≤ nearest x := by
  have hx : 0 < x := lt_of_lt_of_le (by positivity) h
  have hlog : -126 ≤ Int.log 2 x := by
    have h1 := log_le (x := 1 / 2 ^ 126) (by positivity) h
    have h2 : Int.log 2 (1 / 2 ^ 126 : ℚ) = -126 := by
      have := Int.log_zpow (R := ℚ) (b := 2) (by norm_num) (-126)
      have e : ((2 : ℕ) : ℚ) ^ (-126 : ℤ) = 1 / 2 ^ 126 := by norm_num [zpow_neg]
      rw [e] at this; exact this
    omega
  have hulp : ulp x / 2 ≤ u * x := by
    have h1 := le_self hx
    unfold ulp u
    rw [max_eq_left (by omega), zpow_sub₀ (by norm_num)]
    have : (2 : ℚ) ^ (23 : ℤ) = 2 ^ 23 := by norm_num
    rw [this]
    have e : (2 : ℚ) ^ 24 = 2 ^ 23 * 2 := by norm_num
    rw [e]
    have : (2 : ℚ) ^ Int.log 2 x / 2 ^ 23 / 2 ≤ x / 2 ^ 23 / 2 := by
      apply div_le_div_of_nonneg_right _ (by norm_num)
      exact div_le_div_of_nonneg_right h1 (by norm_num)
    refine this.trans (le_of_eq ?_)
    field_simp
  obtain ⟨h1, h2⟩ := nearest_bounds x
  constructor <;> linarith

/-- Adding to a number of type `f32`: no further than this number. -/
theorem nearest_add {x d : ℚ} (hx : Rep x) (h0 : 0 ≤ x) (hd : 0 ≤ d) : nearest (x + d) ≤ x + 2 * d := by
  rcases hd.eq_or_lt with rfl | hd
  · rw [add_zero, hx.nearest]; linarith
  have hz : 0 < x + d := by linarith
  -- a multiple of the unit at `x + d`, between `x` and `x + d`
  obtain ⟨y, n, hn, hxy, hyz⟩ : ∃ y, ∃ n : ℤ, y = n * ulp (x + d) ∧ x ≤ y ∧ y ≤ x + d := by
    by_cases hu : ulp x = ulp (x + d)
    · obtain ⟨n, hn⟩ := hx
      exact ⟨x, n, by rw [← hu]; exact hn, le_rfl, by linarith⟩
    · have hx0 : 0 < x ∨ x = 0 := by
        rcases h0.eq_or_lt with h | h
        · exact .inr h.symm
        · exact .inl h
      rcases hx0 with hx0 | hx0
      · have hl := log_le hx0 (by linarith : x ≤ x + d)
        have hne : max (Int.log 2 x - 23) (-149) ≠ max (Int.log 2 (x + d) - 23) (-149) := by
          intro h0; exact hu (by unfold ulp; rw [h0])
        have hlt : Int.log 2 x + 1 ≤ Int.log 2 (x + d) := by
          by_contra hc
          have : Int.log 2 x = Int.log 2 (x + d) := by omega
          exact hne (by rw [this])
        have h149 : -126 < Int.log 2 (x + d) := by
          by_contra hc
          apply hne
          rw [max_eq_right (by omega), max_eq_right (by omega)]
        obtain ⟨n, hn⟩ := pow_mult (x := x + d) (k := Int.log 2 (x + d)) (by omega)
        exact ⟨_, n, hn, (self_lt x).le.trans (zpow_le_zpow_right₀ (by norm_num) hlt), le_self hz⟩
      · exact ⟨0, 0, by simp, hx0.le, hz.le⟩
  -- the nearest integer is no further than `n`
  have hu := ulp_pos (x + d)
  have hnear : ∀ (t : ℚ) (n : ℤ), (n : ℚ) ≤ t → (halfEven t : ℚ) ≤ t + (t - n) := by
    intro t n hnt
    by_cases hlt : (n : ℚ) + 1 / 2 ≤ t
    · have := (halfEven_bounds t).1
      linarith
    · have h1 : ⌊t⌋ = n := by
        rw [Int.floor_eq_iff]
        constructor
        · exact hnt
        · linarith
      unfold halfEven
      rw [h1, if_pos (by linarith)]
      linarith
  have h1 := hnear ((x + d) / ulp (x + d)) n (by rw [le_div_iff₀ hu, ← hn]; exact hyz)
  have h2 := mul_le_mul_of_nonneg_right h1 hu.le
  rw [add_mul, sub_mul, ← hn, div_mul_cancel₀ _ hu.ne'] at h2
  unfold nearest
  linarith

/-- Integers of at most 24 bits are exact. -/
theorem nat_rep {n : Nat} (h : n ≤ 2 ^ 24) : Rep (n : ℚ) := by
  rcases Nat.eq_zero_or_pos n with rfl | hn
  · exact ⟨0, by simp⟩
  have hq : (0 : ℚ) < n := by exact_mod_cast hn
  rcases Nat.lt_or_ge n (2 ^ 24) with h | h'
  · have : Int.log 2 (n : ℚ) < 24 := by
      have h1 := le_self hq
      have h2 : (n : ℚ) < 2 ^ (24 : ℤ) := by
        have : (n : ℚ) < ((2 ^ 24 : ℕ) : ℚ) := by exact_mod_cast h
        push_cast at this
        exact_mod_cast this
      exact (zpow_lt_zpow_iff_right₀ (by norm_num : (1 : ℚ) < 2)).1 (h1.trans_lt h2)
    obtain ⟨m, hm⟩ := pow_mult (x := (n : ℚ)) (k := 0) (by omega)
    refine ⟨n * m, ?_⟩
    push_cast
    rw [mul_assoc, ← hm]
    simp
  · have e : n = 2 ^ 24 := by omega
    subst e
    have e : ((2 ^ 24 : ℕ) : ℚ) = (2 : ℚ) ^ (24 : ℤ) := by norm_num
    rw [e]
    have : Int.log 2 ((2 : ℚ) ^ (24 : ℤ)) = 24 := by
      exact_mod_cast Int.log_zpow (R := ℚ) (b := 2) (by norm_num) 24
    obtain ⟨m, hm⟩ := pow_mult (x := (2 : ℚ) ^ (24 : ℤ)) (k := 24) (by omega)
    exact ⟨m, hm⟩

theorem round_fin {x : ℚ} (h : nearest x < 2 ^ 128) : round x = fin (nearest x) := by
  unfold round; rw [if_neg (not_le.2 h)]

end Byoc.F32
