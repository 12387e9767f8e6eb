import Verif.Model.Std

/-! # Lemmas about the standard-library functions and `find_cut_at_size` -/

namespace Byoc

/-! ## swap_remove -/

/-- `swap_remove` brings the last element in front of what follows the hole. -/
def rotLast {E : Type u} (q : List E) : List E :=
  match q.getLast? with
  | none => []
  | some x => x :: q.dropLast

theorem rotLast_perm {E : Type u} (q : List E) : (rotLast q).Perm q := by
  unfold rotLast
  cases h : q.getLast? with
  | none => simp at h; simp [h]
  | some x =>
    have hq : q = q.dropLast ++ [x] := by
      obtain ⟨ys, rfl⟩ := List.getLast?_eq_some_iff.1 h
      simp
    conv_rhs => rw [hq]
    simp only
    exact (List.perm_append_singleton x _).symm

theorem swapRemove_append {E : Type u} (p : List E) (x : E) (q : List E) :
    swapRemove (p ++ x :: q) p.length = p ++ rotLast q := by
  unfold swapRemove rotLast
  rcases List.eq_nil_or_concat q with rfl | ⟨q', y, rfl⟩
  · simp [List.set_eq_of_length_le]
  · have : (p ++ x :: (q' ++ [y])) = (p ++ x :: q') ++ [y] := by simp
    simp only [List.concat_eq_append]
    rw [this]
    simp only [List.getLast?_concat, List.dropLast_concat]
    simp

theorem swapRemove_perm {E : Type u} {l : List E} {i : Nat} {e : E} (h : l[i]? = some e) :
    (e :: swapRemove l i).Perm l := by
  obtain ⟨hi, rfl⟩ := List.getElem?_eq_some_iff.1 h
  have hl : l = l.take i ++ l[i] :: l.drop (i + 1) := by
    rw [List.getElem_cons_drop, List.take_append_drop]
  have hs : swapRemove l i = l.take i ++ rotLast (l.drop (i+1)) := by
    have := swapRemove_append (l.take i) l[i] (l.drop (i+1))
    rw [← hl, List.length_take, Nat.min_eq_left (by omega)] at this
    exact this
  rw [hs]
  conv_rhs => rw [hl]
  have := rotLast_perm (l.drop (i+1))
  perms [this]

theorem findKey_none {K V : Type} [DecidableEq K] {l : List (K × V)} {k : K}
    (h : findKey l k = none) : ¬ HasKey l k := by
  unfold findKey at h
  rw [List.findIdx?_eq_none_iff] at h
  rintro ⟨v, hv⟩
  have := h _ hv
  simp at this

theorem findKey_some {K V : Type} [DecidableEq K] {l : List (K × V)} {k : K} {i : Nat}
    (h : findKey l k = some i) :
    ∃ e, l[i]? = some e ∧ e.1 = k ∧ (∀ j e', j < i → l[j]? = some e' → e'.1 ≠ k) := by
  unfold findKey at h
  rw [List.findIdx?_eq_some_iff_getElem] at h
  obtain ⟨hi, h1, h2⟩ := h
  refine ⟨l[i], by simp [hi], by simpa using h1, ?_⟩
  intro j e' hj he
  obtain ⟨hj', rfl⟩ := List.getElem?_eq_some_iff.1 he
  simpa using h2 j hj

/-! ## sort and binary search on keys -/

theorem sortKeys_perm {K : Type} [LinearOrder K] (ks : List K) : (sortKeys ks).Perm ks :=
  List.perm_insertionSort _ _

theorem sortKeys_sorted {K : Type} [LinearOrder K] (ks : List K) :
    (sortKeys ks).Pairwise (· ≤ ·) := List.pairwise_insertionSort _ _

theorem Sorter.ofLe_sorted {E : Type u} (le : E → E → Prop) [DecidableRel le]
    [Std.Total le] [IsTrans E le] (l : List E) : ((Sorter.ofLe le).run l).Pairwise le :=
  List.pairwise_insertionSort _ _

theorem bsearchGo_sound {K : Type} [LinearOrder K] {ks : List K} {k : K} :
    ∀ {fuel l r j}, bsearchGo ks k fuel l r = some j → ks[j]? = some k := by
  intro fuel
  induction fuel with
  | zero => intro l r j h; simp [bsearchGo] at h
  | succ n ih =>
    intro l r j h
    unfold bsearchGo at h
    split at h
    · simp only at h
      split at h
      · simp at h
      · rename_i x hx
        split at h
        · rename_i hxk; simp at h; subst h; rw [hx, hxk]
        · split at h
          · exact ih h
          · exact ih h
    · simp at h

theorem bsearch_sound {K : Type} [LinearOrder K] {ks : List K} {k : K} {j : Nat}
    (h : bsearch ks k = some j) : ks[j]? = some k := bsearchGo_sound h

theorem bsearchGo_complete {K : Type} [LinearOrder K] {ks : List K} {k : K}
    (hs : ks.Pairwise (· ≤ ·)) :
    ∀ {fuel l r : Nat}, r ≤ ks.length → r - l < fuel →
      (∃ i, l ≤ i ∧ i < r ∧ ks[i]? = some k) → (bsearchGo ks k fuel l r).isSome := by
  intro fuel
  induction fuel with
  | zero => intro l r _ h; omega
  | succ n ih =>
    intro l r hr hf ⟨i, hli, hir, hi⟩
    unfold bsearchGo
    have hlr : l < r := by omega
    have hm : l + (r - l) / 2 < ks.length := by omega
    simp only [hlr, if_true]
    rw [List.getElem?_eq_getElem hm]
    simp only
    obtain ⟨hi', hik⟩ := List.getElem?_eq_some_iff.1 hi
    split
    · simp
    · rename_i hne
      split
      · rename_i hlt
        apply ih hr (by omega)
        refine ⟨i, ?_, hir, hi⟩
        by_contra hc
        have hle : i ≤ l + (r - l) / 2 := by omega
        rcases Nat.lt_or_eq_of_le hle with h | h
        · have := List.pairwise_iff_getElem.1 hs i _ hi' hm h
          rw [hik] at this
          exact absurd (lt_of_le_of_lt this hlt) (lt_irrefl _)
        · subst h; exact hne hik
      · rename_i hnlt
        apply ih (by omega) (by omega)
        refine ⟨i, hli, ?_, hi⟩
        by_contra hc
        have hle : l + (r - l) / 2 ≤ i := by omega
        rcases Nat.lt_or_eq_of_le hle with h | h
        · have := List.pairwise_iff_getElem.1 hs _ i hm hi' h
          rw [hik] at this
          exact hnlt (lt_of_le_of_ne this hne)
        · subst h; exact hne hik

/-- On sorted keys `binary_search` succeeds iff the key is there. -/
theorem bsearch_none {K : Type} [LinearOrder K] {ks : List K} {k : K}
    (hs : ks.Pairwise (· ≤ ·)) (h : bsearch ks k = none) : k ∉ ks := by
  intro hk
  obtain ⟨i, hi, hik⟩ := List.mem_iff_getElem.1 hk
  have := bsearchGo_complete (k := k) hs (fuel := ks.length + 1) (l := 0) (r := ks.length)
    (Nat.le_refl _) (by omega) ⟨i, by omega, hi, by simp [hi, hik]⟩
  rw [show bsearchGo ks k (ks.length + 1) 0 ks.length = none from h] at this
  simp at this

theorem eraseIdx_perm {E : Type u} {l : List E} {j : Nat} {k : E} (h : l[j]? = some k) :
    (k :: l.eraseIdx j).Perm l := by
  obtain ⟨hi, rfl⟩ := List.getElem?_eq_some_iff.1 h
  exact List.getElem_cons_eraseIdx_perm hi

theorem eraseIdx_sorted {E : Type u} {r : E → E → Prop} {l : List E} (j : Nat)
    (h : l.Pairwise r) : (l.eraseIdx j).Pairwise r :=
  h.sublist (List.eraseIdx_sublist l j)

theorem removeFound_sorted {K : Type} [LinearOrder K] {ks : List K} (k : K)
    (h : ks.Pairwise (· ≤ ·)) : (removeFound ks k).Pairwise (· ≤ ·) := by
  unfold removeFound; split
  · exact eraseIdx_sorted _ h
  · exact h

/-- Removing found keys leaves a sub-multiset. -/
theorem removeFound_subperm {K : Type} [LinearOrder K] (ks : List K) (k : K) :
    (removeFound ks k).Subperm ks := by
  unfold removeFound; split
  · exact (List.eraseIdx_sublist _ _).subperm
  · exact List.Subperm.refl _

theorem mem_removeFound {K : Type} [LinearOrder K] {ks : List K} {k k' : K}
    (h : k' ∈ ks) (hne : k' ≠ k) : k' ∈ removeFound ks k := by
  unfold removeFound; split
  · rename_i j hj
    have hp := eraseIdx_perm (bsearch_sound hj)
    have := hp.mem_iff.2 h
    simpa [hne] using this
  · exact h

/-! ## find_cut_at_size -/

theorem findCutGo_spec {E : Type u} (sz : E → Nat) (size : Nat) :
    ∀ (r : List E) (i acc : Nat) (o : Option E),
      ∃ p q : List E, r = p ++ q ∧
        (findCutGo sz size r (i, acc, o)).2.1 = acc + total sz p ∧
        (r ≠ [] → (findCutGo sz size r (i, acc, o)).1 = q.length) ∧
        (r ≠ [] → p ≠ [] ∧ (findCutGo sz size r (i, acc, o)).2.2 = p.getLast?) ∧
        (q ≠ [] → size ≤ acc + total sz p) ∧
        (∀ x p', p = p' ++ [x] → p' = [] ∨ acc + total sz p' < size) := by
  intro r
  induction r with
  | nil =>
    intro i acc o
    exact ⟨[], [], rfl, by simp [findCutGo], by simp, by simp, by simp, by simp⟩
  | cons e rest ih =>
    intro i acc o
    by_cases h : acc + sz e < size
    · obtain ⟨p, q, h1, h2, h3, h4, h5, h6⟩ := ih rest.length (acc + sz e) (some e)
      refine ⟨e :: p, q, by simp [h1], ?_, ?_, ?_, ?_, ?_⟩
      · simp only [findCutGo, h, if_true]; rw [h2]; simp; omega
      · intro _
        simp only [findCutGo, h, if_true]
        by_cases hr : rest = []
        · subst hr
          have : p = [] ∧ q = [] := by simpa using h1.symm
          simp [findCutGo, this.2]
        · exact h3 hr
      · intro _
        simp only [findCutGo, h, if_true]
        by_cases hr : rest = []
        · subst hr
          have : p = [] ∧ q = [] := by simpa using h1.symm
          simp [findCutGo, this.1]
        · obtain ⟨h7, h8⟩ := h4 hr
          refine ⟨by simp, ?_⟩
          rw [h8, List.getLast?_cons_of_ne_nil h7]
      · intro hq; have := h5 hq; simp; omega
      · intro x p' hp
        cases p' with
        | nil => left; rfl
        | cons y p'' =>
          right
          simp at hp
          obtain ⟨rfl, hp⟩ := hp
          rcases h6 x p'' hp with h7 | h7
          · subst h7; simpa using h
          · simp; omega
    · refine ⟨[e], rest, rfl, ?_, ?_, ?_, ?_, ?_⟩
      · simp [findCutGo, h]
      · simp [findCutGo, h]
      · simp [findCutGo, h]
      · simp; omega
      · intro x p' hp
        left
        cases p' with
        | nil => rfl
        | cons y p'' => simp at hp

/-- What `find_cut_at_size` computes: the cut splits the list; the size returned is the size of the
right part; the element returned is the first of the right part; the right part is large enough if
the whole list is; and it is the shortest such non-empty suffix. -/
theorem findCut_spec {E : Type u} (sz : E → Nat) (size : Nat) (l : List E) (hl : l ≠ []) :
    ∃ p q : List E, l = p ++ q ∧ q ≠ [] ∧
      findCutAtSize sz size l = (p.length, total sz q, q.head?) ∧
      (p = [] ∨ size ≤ total sz q) ∧
      (∀ x q', q = x :: q' → q' = [] ∨ total sz q' < size) := by
  obtain ⟨p, q, h1, h2, h3, h4, h5, h6⟩ := findCutGo_spec sz size l.reverse 0 0 none
  have hr : l.reverse ≠ [] := by simpa using hl
  refine ⟨q.reverse, p.reverse, ?_, ?_, ?_, ?_, ?_⟩
  · have := congrArg List.reverse h1; simpa using this
  · simpa using (h4 hr).1
  · unfold findCutAtSize
    apply Prod.ext
    · simpa using h3 hr
    · apply Prod.ext
      · simp only [h2, total_reverse]; omega
      · simp only [(h4 hr).2, List.head?_reverse]
  · by_cases hq : q = []
    · left; simp [hq]
    · right; rw [total_reverse]; have := h5 hq; omega
  · intro x q' hq
    have hp : p = q'.reverse ++ [x] := by
      have := congrArg List.reverse hq; simpa using this
    rcases h6 x _ hp with h | h
    · left; simpa using h
    · right; rw [total_reverse] at h; omega

end Byoc
