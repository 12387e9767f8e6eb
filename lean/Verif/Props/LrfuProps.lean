import Verif.Model.Policies
import Mathlib.Tactic.Linarith
import Mathlib.Tactic.Ring
import Mathlib.Tactic.FieldSimp
import Mathlib.Tactic.NormNum
import Mathlib.Data.List.Induction

/-!
# C71: what `Lrfu` ranks elements by

The documentation (src/decorator/lrfu.rs, `Lrfu::new`): "The greater the exponent (>>1) the closer to
Least Recently Used this policy becomes. The smaller (>=1) the exponent, the closer to Least Frequently
Used this policy gets."  Elements of greatest score are evicted first.
-/

namespace Byoc.LrfuProps

/-- The statistics of an element made at time `t0` then accessed at the times `ts`, in this order. -/
def life (e : ℚ) (t0 : Nat) (ts : List Nat) : LrfuStats := ts.foldl LrfuStats.touch (LrfuStats.new e t0)

/-- Successive differences of a list of times, the most recent first. -/
def gaps : List Nat → List ℚ
  | b :: a :: l => ((b : ℚ) - a) :: gaps (a :: l)
  | _ => []

/-- Sum of the intervals between uses, each older one divided once more by `e`. -/
def weighted (e : ℚ) (l : List ℚ) : ℚ := (l.mapIdx fun i g => g / e ^ i).sum

theorem weighted_cons (e g : ℚ) (l : List ℚ) : weighted e (g :: l) = g + weighted e l / e := by
  have : ∀ (l : List ℚ) (f : Nat → ℚ → ℚ), (∀ i x, f (i + 1) x = f i x / e) →
      (l.mapIdx fun i x => f (i + 1) x).sum = (l.mapIdx f).sum / e := by
    intro l
    induction l with
    | nil => simp
    | cons a l ih =>
      intro f hf
      rw [List.mapIdx_cons, List.mapIdx_cons, List.sum_cons, List.sum_cons,
        ih (fun i x => f (i + 1) x) (fun i x => hf (i + 1) x), hf 0 a]
      ring
  rw [weighted, List.mapIdx_cons, List.sum_cons]
  rw [this l (fun i x => x / e ^ i) (fun i x => by rw [pow_succ]; rw [div_div])]
  simp [weighted]

theorem life_exponent (e : ℚ) (t0 : Nat) (ts : List Nat) : (life e t0 ts).exponent = e := by
  have : ∀ (ts : List Nat) (s : LrfuStats), (ts.foldl LrfuStats.touch s).exponent = s.exponent := by
    intro ts
    induction ts with
    | nil => intro s; rfl
    | cons t ts ih => intro s; rw [List.foldl_cons, ih]; rfl
  exact this ts _

theorem life_snoc (e : ℚ) (t0 : Nat) (ts : List Nat) (t : Nat) :
    life e t0 (ts ++ [t]) = (life e t0 ts).touch t := by
  simp [life, List.foldl_append]

theorem life_spec (e : ℚ) (t0 : Nat) (ts : List Nat) :
    (life e t0 ts).last = (t0 :: ts).getLast (by simp) ∧
    (life e t0 ts).eavg = weighted e (gaps (t0 :: ts).reverse) := by
  induction ts using List.reverseRecOn with
  | nil => exact ⟨rfl, by simp [life, LrfuStats.new, gaps, weighted]⟩
  | append_singleton ts t ih =>
    obtain ⟨h1, h2⟩ := ih
    rw [life_snoc]
    refine ⟨by simp [LrfuStats.touch], ?_⟩
    simp only [LrfuStats.touch, life_exponent, h2, h1]
    obtain ⟨a, l, hl⟩ : ∃ a l, (t0 :: ts).reverse = a :: l := by
      cases h : (t0 :: ts).reverse with
      | nil => simp at h
      | cons a l => exact ⟨a, l, rfl⟩
    have hlast : (t0 :: ts).getLast (by simp) = a := by
      rw [List.getLast_eq_head_reverse]; simp [hl]
    rw [hlast]
    have : (t0 :: (ts ++ [t])).reverse = t :: a :: l := by
      rw [← List.cons_append, List.reverse_append, hl]; rfl
    rw [this, gaps, weighted_cons, ← hl]
    rfl

/-- **C71 (score).**  The score at time `now` of an element made at `t0` and accessed at `ts` is the sum
of the intervals between its uses up to now, each older interval divided once more by the exponent. -/
theorem C71_score (e : ℚ) (t0 : Nat) (ts : List Nat) (now : Nat) :
    (life e t0 ts).score now = weighted e (gaps (t0 :: ts ++ [now]).reverse) := by
  have h := (life_spec e t0 (ts ++ [now])).2
  rw [life_snoc] at h
  rw [List.cons_append, ← h]
  rfl

/-- **C71 (access).**  An access at time `t` lowers every later score by `(1 - 1/e)` times the score at
`t`: it makes an element safer when the exponent is above 1, changes nothing when it is 1, and makes it
more likely to be evicted when it is below 1. -/
theorem C71_access (s : LrfuStats) (h : s.exponent ≠ 0) (t now : Nat) :
    (s.touch t).score now = s.score now - (1 - 1 / s.exponent) * s.score t := by
  simp only [LrfuStats.score, LrfuStats.touch, tsDiff]
  field_simp
  ring

theorem weighted_one (t0 : Nat) : ∀ (l : List Nat), ∀ b, weighted 1 (gaps (b :: l ++ [t0])) = b - t0 := by
  intro l
  induction l with
  | nil => intro b; simp [gaps, weighted]
  | cons a l ih =>
    intro b
    have : gaps (b :: (a :: l) ++ [t0]) = ((b : ℚ) - a) :: gaps (a :: l ++ [t0]) := rfl
    rw [this, weighted_cons, ih a]
    ring

/-- **C71, exponent 1** (what every configuration file gets, see C62): the score is the age since the
element was made, whenever and however often it was used: first in, first out. -/
theorem C71_exponent_one (t0 : Nat) (ts : List Nat) (now : Nat) :
    (life 1 t0 ts).score now = (now : ℚ) - t0 := by
  rw [C71_score]
  have : (t0 :: ts ++ [now]).reverse = now :: ts.reverse ++ [t0] := by simp
  rw [this, weighted_one]

/-- The times of an element's life up to now. -/
def Timed (t0 : Nat) (ts : List Nat) (now : Nat) : Prop := (t0 :: ts ++ [now]).Pairwise (· ≤ ·)

theorem eavg_bounds (e : ℚ) (he : 1 ≤ e) (t0 : Nat) (ts : List Nat) :
    (t0 :: ts).Pairwise (· ≤ ·) →
    0 ≤ (life e t0 ts).eavg ∧ (life e t0 ts).eavg ≤ (life e t0 ts).last - t0 := by
  induction ts using List.reverseRecOn with
  | nil => intro _; simp [life, LrfuStats.new]
  | append_singleton ts t ih =>
    intro h
    rw [← List.cons_append, List.pairwise_append] at h
    obtain ⟨i1, i2⟩ := ih h.1
    have hl : (life e t0 ts).last ≤ t := by
      rw [(life_spec e t0 ts).1]
      exact h.2.2 _ (List.getLast_mem _) t (by simp)
    have hl' : ((life e t0 ts).last : ℚ) ≤ t := by exact_mod_cast hl
    have hd : (life e t0 ts).eavg / e ≤ (life e t0 ts).eavg := div_le_self i1 he
    have hp : 0 ≤ (life e t0 ts).eavg / e := div_nonneg i1 (by linarith)
    rw [life_snoc]
    simp only [LrfuStats.touch, tsDiff, life_exponent]
    constructor <;> linarith

/-- **C71 (making cells).**  A cell is made exactly when the exponent is positive (otherwise the push that
wraps the value panics): it holds the value, has no access yet, and no later score of it divides by 0
nor is negative. -/
theorem C71_made {V : Type} (v : V) (e : ℚ) (t0 : Nat) :
    (e ≤ 0 → LrfuCell.new v e t0 = .panic) ∧
    (0 < e → ∃ c, LrfuCell.new v e t0 = .ok c ∧ c.value = v ∧ c.stats = life e t0 [] ∧
      ∀ ts now, Timed t0 ts now → (life e t0 ts).exponent ≠ 0 ∧ 0 ≤ (life e t0 ts).score now) := by
  refine ⟨fun h => by simp [LrfuCell.new, h], fun h => ⟨⟨v, .new e t0⟩, ?_, rfl, rfl, ?_⟩⟩
  · simp [LrfuCell.new, not_le.2 h]
  · intro ts now ht
    refine ⟨by rw [life_exponent]; exact ne_of_gt h, ?_⟩
    have key : ∀ ts, (t0 :: ts).Pairwise (· ≤ ·) → 0 ≤ (life e t0 ts).eavg := by
      intro ts
      induction ts using List.reverseRecOn with
      | nil => intro _; simp [life, LrfuStats.new]
      | append_singleton ts t ih =>
        intro hp
        rw [← List.cons_append, List.pairwise_append] at hp
        have hl : (life e t0 ts).last ≤ t := by
          rw [(life_spec e t0 ts).1]
          exact hp.2.2 _ (List.getLast_mem _) t (by simp)
        have hl' : ((life e t0 ts).last : ℚ) ≤ t := by exact_mod_cast hl
        have := div_nonneg (ih hp.1) (le_of_lt h)
        rw [life_snoc]
        simp only [LrfuStats.touch, tsDiff, life_exponent]
        linarith
    have := key (ts ++ [now]) (by simpa [Timed] using ht)
    rw [life_snoc] at this
    exact this

/-- Full statement of C71: with an exponent greater than all times elements are ranked by their last
use, and with exponent 1 by their number of uses. -/
def C71_full : Prop :=
  ∀ (a b : Nat) (as bs : List Nat) (now : Nat), Timed a as now → Timed b bs now →
    (∀ e : ℚ, now < e → (a :: as).getLast (by simp) < (b :: bs).getLast (by simp) →
      (life e b bs).score now < (life e a as).score now) ∧
    (bs.length < as.length → (life 1 a as).score now ≤ (life 1 b bs).score now)

/-- **C71, large exponents**: with an exponent greater than the time elapsed, of two elements the one
last used earlier is evicted first, whatever their other uses. -/
theorem C71_partial (e : ℚ) (a b : Nat) (as bs : List Nat) (now : Nat) (ha : Timed a as now)
    (hb : Timed b bs now) (he : now < e)
    (h : (a :: as).getLast (by simp) < (b :: bs).getLast (by simp)) :
    (life e b bs).score now < (life e a as).score now := by
  rw [Timed, List.pairwise_append] at ha hb
  have la := (life_spec e a as).1
  have lb := (life_spec e b bs).1
  have hbn : (life e b bs).last ≤ now := by
    rw [lb]; exact hb.2.2 _ (List.getLast_mem _) now (by simp)
  have hbn' : ((life e b bs).last : ℚ) ≤ now := by exact_mod_cast hbn
  have hlt : (life e a as).last + 1 ≤ (life e b bs).last := by rw [la, lb]; exact h
  have hlt' : ((life e a as).last : ℚ) + 1 ≤ (life e b bs).last := by exact_mod_cast hlt
  have hn1 : (1 : ℚ) ≤ now := by
    have : ((life e a as).last : ℚ) ≥ 0 := by exact_mod_cast Nat.zero_le _
    linarith
  have he1 : 1 ≤ e := by linarith
  obtain ⟨a1, a2⟩ := eavg_bounds e he1 a as ha.1
  obtain ⟨b1, b2⟩ := eavg_bounds e he1 b bs hb.1
  have hpa : 0 ≤ (life e a as).eavg / e := div_nonneg a1 (by linarith)
  have hb0 : (b : ℚ) ≥ 0 := by exact_mod_cast Nat.zero_le _
  have hpb : (life e b bs).eavg / e < 1 := by
    rw [div_lt_one (by linarith)]; linarith
  simp only [LrfuStats.score, tsDiff, life_exponent]
  linarith

/-- **C71 is false of the code**: with exponent 1 an element used three times is evicted before a more
recent one never used. -/
theorem C71_false : ¬ C71_full := by
  intro h
  have := (h 0 1 [2, 3, 4] [] 10 (by unfold Timed; decide) (by unfold Timed; decide)).2 (by decide)
  rw [C71_exponent_one, C71_exponent_one] at this
  norm_num at this

/-- Exponent 2: an element made at 0 and used at 2 and 3 scores less at time 5 than one made at 1 and
never used. -/
example : (life 2 0 [2, 3]).score 5 < (life 2 1 []).score 5 := by
  norm_num [life, LrfuStats.score, LrfuStats.touch, LrfuStats.new, tsDiff]

example : Timed 0 [2, 5] 9 ∧ Timed 1 [3, 3, 4] 9 := ⟨by unfold Timed; decide, by unfold Timed; decide⟩

end Byoc.LrfuProps
