import Verif.Model.Array
import Verif.Proofs.Std

/-! # `Array`: invariant and contract -/

namespace Byoc
namespace Array

variable {K V : Type}

/-- The counter is the sum of the sizes of the stored elements, and is within capacity. -/
def Inv (sz : K × V → Nat) (a : Array K V) : Prop :=
  a.totalSize = total sz a.values ∧ a.totalSize ≤ a.capacity

theorem new_inv (sz : K × V → Nat) (n : Nat) : Inv sz (new n : Array K V) := by
  simp [Inv, new]

/-- Complete description of `pop`. -/
theorem pop_cases (sz : K × V → Nat) (srt : Sorter (K × V)) (a : Array K V) (n : Nat)
    (h : Inv sz a) :
    (a.values = [] ∧ a.pop sz srt n = .ok ([], a)) ∨
    (a.values ≠ [] ∧ a.totalSize ≤ n ∧
      a.pop sz srt n = .ok (a.values, { a with totalSize := 0, values := [] })) ∨
    (a.values ≠ [] ∧ n < a.totalSize ∧ ∃ p q : List (K × V),
      srt.run a.values = p ++ q ∧ q ≠ [] ∧ n ≤ total sz q ∧
      (∀ x q', q = x :: q' → q' = [] ∨ total sz q' < n) ∧
      a.pop sz srt n = .ok (q, { a with totalSize := a.totalSize - total sz q, values := p })) := by
  by_cases hv : a.values = []
  · left; exact ⟨hv, by simp [pop, hv]⟩
  right
  by_cases ht : a.totalSize ≤ n
  · left; exact ⟨hv, ht, by simp [pop, hv, ht]⟩
  right
  refine ⟨hv, by omega, ?_⟩
  have hp := srt.perm a.values
  have hne : srt.run a.values ≠ [] := by
    intro hc; rw [hc] at hp; exact hv (List.nil_perm.1 hp)
  obtain ⟨p, q, h1, h2, h3, h4, h5⟩ := findCut_spec sz n (srt.run a.values) hne
  have htot := total_perm sz hp
  rw [h1, total_append] at htot
  refine ⟨p, q, h1, h2, ?_, h5, ?_⟩
  · rcases h4 with h4 | h4
    · subst h4; simp at htot; have := h.1; omega
    · exact h4
  · have hle : total sz q ≤ a.totalSize := by have := h.1; omega
    simp only [pop, hv, ht, if_false, h3, Res.sub_ok hle, Res.ok_bind, Res.pure_eq]
    simp [h1]

theorem pop_spec (sz : K × V → Nat) (srt : Sorter (K × V)) (a : Array K V) (n : Nat)
    (h : Inv sz a) : ∃ out a', a.pop sz srt n = .ok (out, a') ∧ Inv sz a' ∧
      a'.capacity = a.capacity ∧ (a'.values ++ out).Perm a.values ∧
      (a'.totalSize + n ≤ a.totalSize ∨ a'.values = []) := by
  rcases pop_cases sz srt a n h with ⟨h1, h2⟩ | ⟨h1, h2, h3⟩ | ⟨h1, h2, p, q, h3, h4, h5, -, h6⟩
  · exact ⟨_, _, h2, h, rfl, by simp [h1], Or.inr h1⟩
  · exact ⟨_, _, h3, by simp [Inv], rfl, by simp, Or.inr rfl⟩
  · have hp := srt.perm a.values
    have htot := total_perm sz hp
    rw [h3, total_append] at htot
    have h7 := h.1
    have h8 := h.2
    refine ⟨_, _, h6, ⟨?_, ?_⟩, rfl, by rw [← h3]; exact hp, Or.inl ?_⟩
    · simp only; omega
    · simp only; omega
    · simp only; omega

theorem push_cases (sz : K × V → Nat) (srt srtS : Sorter (K × V)) (a : Array K V)
    (l : List (K × V)) (h : Inv sz a) :
    (a.totalSize + total sz l ≤ a.capacity ∧ a.push sz srt srtS l = .ok ([],
      { a with totalSize := a.totalSize + total sz l, values := a.values ++ l })) ∨
    (a.capacity < a.totalSize + total sz l ∧ total sz l = a.capacity ∧
      a.push sz srt srtS l = .ok (a.values, { a with totalSize := total sz l, values := l })) ∨
    (a.capacity < total sz l ∧ ∃ p q, srtS.run l = p ++ q ∧ q ≠ [] ∧
      total sz l - a.capacity ≤ total sz q ∧
      (∀ x q', q = x :: q' → q' = [] ∨ total sz q' < total sz l - a.capacity) ∧
      a.push sz srt srtS l = .ok (a.values ++ q,
        { a with totalSize := total sz l - total sz q, values := p })) ∨
    (a.capacity < a.totalSize + total sz l ∧ total sz l < a.capacity ∧ ∃ out a',
      a.pop sz srt (total sz l - (a.capacity - a.totalSize)) = .ok (out, a') ∧
      a.push sz srt srtS l = .ok (out, 
        { a' with totalSize := a'.totalSize + total sz l, values := a'.values ++ l })) := by
  have h8 := h.2
  by_cases hc1 : total sz l ≤ a.capacity - a.totalSize
  · left
    exact ⟨by omega, by simp [push, Res.sub_ok h8, hc1]⟩
  right
  by_cases hc2 : total sz l = a.capacity
  · left
    refine ⟨by omega, hc2, ?_⟩
    rw [push, Res.sub_ok h8]
    simp only [Res.ok_bind, if_neg hc1, if_pos hc2, Res.pure_eq]
  right
  by_cases hc3 : total sz l > a.capacity
  · left
    refine ⟨hc3, ?_⟩
    have hne : srtS.run l ≠ [] := by
      intro hc
      have := total_perm sz (srtS.perm l)
      rw [hc] at this; simp at this; omega
    obtain ⟨p, q, h1, h2, h3, h4, h5⟩ :=
      findCut_spec sz (total sz l - a.capacity) (srtS.run l) hne
    have htot := total_perm sz (srtS.perm l)
    rw [h1, total_append] at htot
    refine ⟨p, q, h1, h2, ?_, h5, ?_⟩
    · rcases h4 with h4 | h4
      · subst h4; simp at htot; omega
      · exact h4
    · have hle : total sz q ≤ total sz l := by omega
      rw [push, Res.sub_ok h8]
      simp only [Res.ok_bind, hc1, if_false, hc2, hc3, if_true, h3, Res.sub_ok hle, Res.pure_eq]
      simp [h1]
  · right
    obtain ⟨out, a', h1, -⟩ := pop_spec sz srt a (total sz l - (a.capacity - a.totalSize)) h
    refine ⟨by omega, by omega, out, a', h1, ?_⟩
    rw [push, Res.sub_ok h8]
    simp only [Res.ok_bind, hc1, if_false, hc2, hc3, h1, Res.pure_eq]

theorem push_spec (sz : K × V → Nat) (srt srtS : Sorter (K × V)) (a : Array K V)
    (l : List (K × V)) (h : Inv sz a) :
    ∃ out a', a.push sz srt srtS l = .ok (out, a') ∧ Inv sz a' ∧
      a'.capacity = a.capacity ∧ (a'.values ++ out).Perm (a.values ++ l) := by
  have h7 := h.1
  have h8 := h.2
  rcases push_cases sz srt srtS a l h with ⟨h1, h2⟩ | ⟨h1, h2, h3⟩ | ⟨h1, p, q, h2, h3, h4, h5, h6⟩ |
      ⟨h1, h2, out, a', h3, h4⟩
  · exact ⟨_, _, h2, ⟨by simp [h7], by simpa using h1⟩, rfl, by simp⟩
  · exact ⟨_, _, h3, ⟨rfl, by simp [h2]⟩, rfl, List.perm_append_comm⟩
  · have hp := srtS.perm l
    have htot := total_perm sz hp
    rw [h2, total_append] at htot
    refine ⟨_, _, h6, ⟨by simp only; omega, by simp only; omega⟩, rfl, ?_⟩
    rw [h2] at hp
    simp only
    perms [hp]
  · obtain ⟨out2, a2, g1, g2, g3, g4, g5⟩ :=
      pop_spec sz srt a (total sz l - (a.capacity - a.totalSize)) h
    rw [h3] at g1
    cases g1
    refine ⟨_, _, h4, ⟨by simp [g2.1], ?_⟩, g3, ?_⟩
    · simp only
      rcases g5 with g5 | g5
      · omega
      · have := g2.1; rw [g5] at this; simp at this; omega
    · simp only
      perms [g4]

theorem take_spec [DecidableEq K] (sz : K × V → Nat) (a : Array K V) (k : K) (h : Inv sz a) :
    ∃ o a', a.take sz k = .ok (o, a') ∧ Inv sz a' ∧ a'.capacity = a.capacity ∧
      match o with
      | none => ¬ HasKey a.values k ∧ a' = a
      | some e => e.1 = k ∧ (e :: a'.values).Perm a.values := by
  unfold take
  cases hf : findKey a.values k with
  | none => exact ⟨none, a, rfl, h, rfl, findKey_none hf, rfl⟩
  | some i =>
    obtain ⟨e, h1, h2, -⟩ := findKey_some hf
    have hp := swapRemove_perm h1
    have ht := total_perm sz hp
    simp only [total_cons] at ht
    have h7 := h.1
    have h8 := h.2
    have hle : sz e ≤ a.totalSize := by omega
    refine ⟨some e, { a with totalSize := a.totalSize - sz e, values := swapRemove a.values i },
      by simp only [h1, Res.unwrap_some, Res.ok_bind, Res.sub_ok hle, Res.pure_eq],
      ⟨by simp only; omega, by simp only; omega⟩, rfl, h2, hp⟩

/-- What the `take_multiple` loop does to the unvisited prefix, seen from right to left: elements
whose key is requested are taken (and the key is used up), others are kept. -/
def pick [DecidableEq K] : List (K × V) → List K → List (K × V) × List (K × V)
  | [], _ => ([], [])
  | e :: r, ks =>
    if e.1 ∈ ks then
      let (t, u) := pick r (ks.erase e.1)
      (e :: t, u)
    else
      let (t, u) := pick r ks
      (t, e :: u)

theorem pick_congr [DecidableEq K] (r : List (K × V)) :
    ∀ {ks ks' : List K}, ks.Perm ks' → pick r ks = pick r ks' := by
  induction r with
  | nil => intros; rfl
  | cons e r ih =>
    intro ks ks' h
    simp only [pick, h.mem_iff, ih h, ih (h.erase e.1)]

theorem pick_perm [DecidableEq K] (r : List (K × V)) :
    ∀ ks : List K, ((pick r ks).1 ++ (pick r ks).2).Perm r := by
  induction r with
  | nil => intro ks; simp [pick]
  | cons e r ih =>
    intro ks
    simp only [pick]
    split
    · simpa using (ih (ks.erase e.1))
    · have := ih ks
      simp only
      perms [this]

/-- Exactly `min (requested) (stored)` elements of each key are taken. -/
theorem pick_count [DecidableEq K] (r : List (K × V)) :
    ∀ (ks : List K) (k : K), ((pick r ks).1.map Prod.fst).count k =
      min (ks.count k) ((r.map Prod.fst).count k) := by
  induction r with
  | nil => intro ks k; simp [pick]
  | cons e r ih =>
    intro ks k
    simp only [pick]
    split
    · rename_i hm
      simp only [List.map_cons, List.count_cons, ih, List.count_erase]
      have hpos : 0 < ks.count e.1 := List.count_pos_iff.2 hm
      by_cases hk : e.1 = k
      · subst hk; simp; omega
      · simp [hk]
    · rename_i hm
      simp only [List.map_cons, List.count_cons, ih]
      by_cases hk : e.1 = k
      · subst hk; simp [List.count_eq_zero.2 hm]
      · simp [hk]

theorem takeMultipleLoop_spec [LinearOrder K] (sz : K × V → Nat) :
    ∀ (i : Nat) (a : Array K V) (p q : List (K × V)) (keys : List K) (ret : List (K × V)),
      Inv sz a → a.values = p ++ q → p.length = i → keys.Pairwise (· ≤ ·) →
      ∃ keys' a', takeMultipleLoop sz i a keys ret =
          .ok (ret ++ (pick p.reverse keys).1, keys', a') ∧ Inv sz a' ∧ a'.capacity = a.capacity ∧
        keys'.Pairwise (· ≤ ·) ∧
        (((pick p.reverse keys).1.map Prod.fst) ++ keys').Perm keys ∧
        (a'.values ++ (pick p.reverse keys).1).Perm a.values := by
  intro i
  induction i with
  | zero =>
    intro a p q keys ret h hv hl hk
    have : p = [] := by simpa using hl
    subst this
    exact ⟨keys, a, by simp [takeMultipleLoop, pick], h, rfl, hk, by simp [pick], by simp [pick]⟩
  | succ i ih =>
    intro a p q keys ret h hv hl hk
    obtain ⟨p', e, rfl⟩ : ∃ p' e, p = p' ++ [e] := by
      rcases List.eq_nil_or_concat p with rfl | ⟨p', e, rfl⟩
      · simp at hl
      · exact ⟨p', e, by simp⟩
    have hl' : p'.length = i := by simpa using hl
    have hget : a.values[i]? = some e := by
      rw [hv, ← hl']; simp
    simp only [takeMultipleLoop, hget, Res.unwrap_some, Res.ok_bind]
    have hrev : (p' ++ [e]).reverse = e :: p'.reverse := by simp
    cases hb : bsearch keys e.1 with
    | none =>
      have hnm := bsearch_none hk hb
      obtain ⟨keys', a', g1, g2, g3, g4, g5, g6⟩ :=
        ih a p' (e :: q) keys ret h (by simp [hv]) hl' hk
      refine ⟨keys', a', ?_, g2, g3, g4, ?_, ?_⟩
      · rw [g1, hrev]; simp [pick, hnm]
      · rw [hrev]; simpa [pick, hnm] using g5
      · rw [hrev]; simpa [pick, hnm] using g6
    | some j =>
      have hj := bsearch_sound hb
      have hm : e.1 ∈ keys := List.mem_of_getElem? hj
      have hpe := eraseIdx_perm hj
      have hpe' : (keys.eraseIdx j).Perm (keys.erase e.1) :=
        (List.cons_perm_iff_perm_erase.1 hpe).2
      have hp := swapRemove_perm hget
      have ht := total_perm sz hp
      simp only [total_cons] at ht
      have h7 := h.1
      have h8 := h.2
      have hle : sz e ≤ a.totalSize := by omega
      simp only [Res.sub_ok hle, Res.ok_bind]
      have hsr : swapRemove a.values i = p' ++ rotLast q := by
        have := swapRemove_append p' e q
        rw [hv, ← hl']; simpa using this
      obtain ⟨keys', a', g1, g2, g3, g4, g5, g6⟩ :=
        ih { a with totalSize := a.totalSize - sz e, values := swapRemove a.values i } p' (rotLast q)
          (keys.eraseIdx j) (ret ++ [e]) ⟨by simp only; omega, by simp only; omega⟩ hsr hl'
          (eraseIdx_sorted j hk)
      have hpk := pick_congr p'.reverse hpe'
      have hpick : pick (e :: p'.reverse) keys =
          (e :: (pick p'.reverse (keys.eraseIdx j)).1, (pick p'.reverse (keys.eraseIdx j)).2) := by
        simp [pick, hm, hpk]
      refine ⟨keys', a', ?_, g2, g3, g4, ?_, ?_⟩
      · rw [g1, hrev, hpick]; simp
      · rw [hrev, hpick]
        simp only [List.map_cons]
        perms [g5, hpe]
      · rw [hrev, hpick]
        simp only at g6 ⊢
        perms [g6, hp]

theorem takeMultiple_spec [LinearOrder K] (sz : K × V → Nat) (a : Array K V) (ks : List K)
    (h : Inv sz a) :
    ∃ out ks' a', a.takeMultiple sz ks = .ok (out, ks', a') ∧ Inv sz a' ∧
      a'.capacity = a.capacity ∧ (a'.values ++ out).Perm a.values ∧
      ((out.map Prod.fst) ++ ks').Perm ks ∧
      (∀ k, (out.map Prod.fst).count k = min (ks.count k) ((a.values.map Prod.fst).count k)) := by
  obtain ⟨ks', a', g1, g2, g3, g4, g5, g6⟩ :=
    takeMultipleLoop_spec sz a.values.length a a.values [] (sortKeys ks) [] h (by simp) rfl
      (sortKeys_sorted ks)
  refine ⟨(pick a.values.reverse (sortKeys ks)).1, ks', a', by simpa [takeMultiple] using g1, g2, g3, g6,
    g5.trans (sortKeys_perm ks), ?_⟩
  intro k
  rw [pick_count, (sortKeys_perm ks).count_eq, List.map_reverse, List.count_reverse]

/-- `Array` respects the container contract. -/
theorem lawful [LinearOrder K] (sz : K × V → Nat) (srt srtS : Sorter (K × V)) :
    Lawful (arrayBlock sz srt srtS) (Inv sz) values (fun _ => True) where
  bounded s h := h.2
  empty_size s h he := by
    have h1 := h.1
    rw [he] at h1; simpa [arrayBlock] using h1
  contains s k h := by
    refine ⟨s.contains k, s, rfl, h, rfl, rfl, rfl, ?_⟩
    simp [contains, HasKey]
  take s k h := by
    obtain ⟨o, a', h1, h2, h3, h4⟩ := take_spec sz s k h
    refine ⟨o, a', h1, h2, h3, ?_⟩
    cases o with
    | none => simp only at h4 ⊢; exact ⟨h4.1, by rw [h4.2]⟩
    | some e => exact h4
  takeMultiple s ks h := by
    obtain ⟨out, ks', a', h1, h2, h3, h4, h5, h6⟩ := takeMultiple_spec sz s ks h
    refine ⟨out, ks', a', h1, h2, h3, h4, ?_, ?_, ?_, ?_⟩
    · intro e he
      exact h5.mem_iff.1 (by simp only [List.mem_append, List.mem_map]; exact Or.inl ⟨e, he, rfl⟩)
    · intro k hk hs
      rw [hasKey_iff_mem_map] at hs ⊢
      rw [← List.count_pos_iff] at hs hk ⊢
      rw [h6 k]; omega
    · exact ((List.sublist_append_right _ _).subperm).trans h5.subperm
    · intro k hk hn
      have := h5.mem_iff.2 hk
      rw [List.mem_append] at this
      rw [hasKey_iff_mem_map] at hn
      exact this.resolve_left hn
  pop s n h := pop_spec sz srt s n h
  push s l h _ := push_spec sz srt srtS s l h
  flush s h := ⟨s.values, _, rfl, by simp [Inv], rfl, by simp⟩

theorem flushes [LinearOrder K] (sz : K × V → Nat) (srt srtS : Sorter (K × V)) :
    Flushes (arrayBlock sz srt srtS) (Inv sz) values :=
  fun s _ => ⟨s.values, _, rfl, rfl, List.Perm.refl _⟩

theorem strict [LinearOrder K] (sz : K × V → Nat) (srt srtS : Sorter (K × V)) :
    Strict (arrayBlock sz srt srtS) (Inv sz) := by
  intro s ks out ks' s' h he
  obtain ⟨out2, ks2, a2, h1, -, -, -, h5, -⟩ := takeMultiple_spec sz s ks h
  have h1' : (arrayBlock sz srt srtS).takeMultiple s ks = .ok (out2, ks2, a2) := h1
  rw [h1'] at he
  cases he
  exact h5.subperm

end Array
end Byoc
