import Verif.Spec
import Mathlib.Data.List.Nodup

/-! # Association lists with distinct keys, seen as finite maps -/

namespace Byoc

variable {K V : Type} [DecidableEq K]

/-- The value stored with key `k`. -/
def lk (l : List (K × V)) (k : K) : Option V :=
  (l.find? fun e => decide (e.1 = k)).map Prod.snd

@[simp] theorem lk_nil (k : K) : lk ([] : List (K × V)) k = none := rfl

theorem lk_cons (e : K × V) (l : List (K × V)) (k : K) :
    lk (e :: l) k = if e.1 = k then some e.2 else lk l k := by
  unfold lk
  by_cases h : e.1 = k <;> simp [h]

theorem lk_append (l m : List (K × V)) (k : K) : lk (l ++ m) k = (lk l k).or (lk m k) := by
  induction l with
  | nil => simp
  | cons e l ih => simp only [List.cons_append, lk_cons, ih]; split <;> simp

theorem mem_of_lk {l : List (K × V)} {k : K} {v : V} (h : lk l k = some v) : (k, v) ∈ l := by
  induction l with
  | nil => simp at h
  | cons e l ih =>
    rw [lk_cons] at h
    split at h
    · cases h; rename_i h; subst h; simp
    · exact List.mem_cons_of_mem _ (ih h)

theorem lk_none_iff {l : List (K × V)} {k : K} : lk l k = none ↔ ¬ HasKey l k := by
  induction l with
  | nil => simp [HasKey]
  | cons e l ih =>
    rw [lk_cons]
    split
    · rename_i h
      subst h
      simp only [reduceCtorEq, false_iff, not_not]
      exact ⟨e.2, by simp⟩
    · rename_i h
      rw [ih]
      apply not_congr
      constructor
      · rintro ⟨v, hv⟩; exact ⟨v, List.mem_cons_of_mem _ hv⟩
      · rintro ⟨v, hv⟩
        rcases List.mem_cons.1 hv with rfl | hv
        · exact absurd rfl h
        · exact ⟨v, hv⟩

theorem hasKey_iff_lk {l : List (K × V)} {k : K} : HasKey l k ↔ ∃ v, lk l k = some v := by
  have := @lk_none_iff _ _ _ l k
  cases h : lk l k with
  | none => simp [this.1 h]
  | some v => simp only [Option.some.injEq, exists_eq', iff_true]; exact ⟨v, mem_of_lk h⟩

theorem lk_of_mem {l : List (K × V)} (hn : (l.map Prod.fst).Nodup) {k : K} {v : V}
    (h : (k, v) ∈ l) : lk l k = some v := by
  induction l with
  | nil => simp at h
  | cons e l ih =>
    simp only [List.map_cons, List.nodup_cons] at hn
    rw [lk_cons]
    rcases List.mem_cons.1 h with rfl | h
    · simp
    · split
      · rename_i he; subst he
        exact absurd (List.mem_map.2 ⟨_, h, rfl⟩) hn.1
      · exact ih hn.2 h

theorem lk_iff_mem {l : List (K × V)} (hn : (l.map Prod.fst).Nodup) {k : K} {v : V} :
    lk l k = some v ↔ (k, v) ∈ l := ⟨mem_of_lk, lk_of_mem hn⟩

theorem lk_perm {l m : List (K × V)} (h : l.Perm m) (hn : (l.map Prod.fst).Nodup) (k : K) :
    lk l k = lk m k := by
  have hm := (h.map Prod.fst).nodup_iff.1 hn
  apply Option.ext
  intro v
  rw [lk_iff_mem hn, lk_iff_mem hm, h.mem_iff]

omit [DecidableEq K] in
theorem nodup_of_keys {l : List (K × V)} (hn : (l.map Prod.fst).Nodup) : l.Nodup :=
  List.Nodup.of_map _ hn

theorem perm_of_lk {l m : List (K × V)} (hl : (l.map Prod.fst).Nodup) (hm : (m.map Prod.fst).Nodup)
    (h : ∀ k, lk l k = lk m k) : l.Perm m := by
  rw [List.perm_ext_iff_of_nodup (nodup_of_keys hl) (nodup_of_keys hm)]
  rintro ⟨k, v⟩
  rw [← lk_iff_mem hl, ← lk_iff_mem hm, h]

theorem lk_map {W : Type} (g : K → V → W) (l : List (K × V)) (k : K) :
    lk (l.map fun e => (e.1, g e.1 e.2)) k = (lk l k).map (g k) := by
  induction l with
  | nil => simp
  | cons e l ih =>
    simp only [List.map_cons, lk_cons, ih]
    split
    · rename_i h; subst h; simp
    · rfl

omit [DecidableEq K] in
theorem keys_map {W : Type} (g : K → V → W) (l : List (K × V)) :
    (l.map fun e => (e.1, g e.1 e.2)).map Prod.fst = l.map Prod.fst := by
  simp [Function.comp_def]

/-- A split of a list with distinct keys: each key is on one side. -/
theorem lk_split {l a b : List (K × V)} (h : (a ++ b).Perm l) (hn : (l.map Prod.fst).Nodup) :
    (a.map Prod.fst).Nodup ∧ (b.map Prod.fst).Nodup ∧ ∀ k, lk l k = (lk a k).or (lk b k) ∧
      (lk a k = none ∨ lk b k = none) := by
  have hn' := (h.map Prod.fst).nodup_iff.2 hn
  have hk := fun k => lk_perm h (by simpa using hn') k
  rw [List.map_append, List.nodup_append] at hn'
  refine ⟨hn'.1, hn'.2.1, fun k => ⟨?_, ?_⟩⟩
  · rw [← hk, lk_append]
  · by_cases ha : HasKey a k
    · right
      rw [lk_none_iff]
      intro hb
      exact hn'.2.2 k (hasKey_iff_mem_map.1 ha) k (hasKey_iff_mem_map.1 hb) rfl
    · exact Or.inl (lk_none_iff.2 ha)

theorem lk_filter {l : List (K × V)} (hn : (l.map Prod.fst).Nodup) (p : K × V → Bool) (k : K) :
    lk (l.filter p) k = (lk l k).filter fun v => p (k, v) := by
  have hn' : ((l.filter p).map Prod.fst).Nodup := (List.filter_sublist.map _).nodup hn
  apply Option.ext
  intro v
  rw [lk_iff_mem hn', List.mem_filter, Option.filter_eq_some_iff, lk_iff_mem hn]

/-- Taking out elements by keys, from a list with distinct keys. -/
theorem lk_taken {l rest out : List (K × V)} {ks : List K}
    (hn : (l.map Prod.fst).Nodup) (hp : (rest ++ out).Perm l) (h1 : ∀ e ∈ out, e.1 ∈ ks)
    (h2 : ∀ k ∈ ks, HasKey l k → HasKey out k) (k : K) :
    lk out k = (if k ∈ ks then lk l k else none) ∧ lk rest k = if k ∈ ks then none else lk l k := by
  obtain ⟨-, -, h⟩ := lk_split hp hn
  obtain ⟨ha, hb⟩ := h k
  by_cases hk : k ∈ ks
  · simp only [hk, if_true]
    cases hl : lk l k with
    | none =>
      rw [hl] at ha
      have hx := ha.symm
      rw [Option.or_eq_none_iff] at hx
      exact ⟨hx.2, hx.1⟩
    | some v =>
      have := h2 k hk (hasKey_iff_lk.2 ⟨v, hl⟩)
      rw [hasKey_iff_lk] at this
      obtain ⟨w, hw⟩ := this
      rw [hw] at hb ha
      simp only [reduceCtorEq, or_false] at hb
      rw [hb] at ha
      simp only [Option.none_or] at ha
      rw [hl] at ha
      cases ha
      exact ⟨hw, hb⟩
  · have ho : lk out k = none := by
      rw [lk_none_iff]
      rintro ⟨v, hv⟩
      exact hk (h1 _ hv)
    simp only [hk, if_false]
    rw [ho] at ha
    simp only [Option.or_none] at ha
    exact ⟨ho, ha.symm⟩

end Byoc
