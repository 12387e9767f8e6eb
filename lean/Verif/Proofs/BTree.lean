import Verif.Model.BTree
import Verif.Proofs.Batch

/-! # `BTree`: invariant and contract -/

set_option linter.unusedSectionVars false

namespace Byoc

variable {K V : Type} [LinearOrder K] [LinearOrder V]

instance : Std.Total (pairLe : V × K → V × K → Prop) := ⟨by
  intro a b
  unfold pairLe
  rcases lt_trichotomy a.1 b.1 with h | h | h
  · exact Or.inl (Or.inl h)
  · rcases le_total a.2 b.2 with g | g
    · exact Or.inl (Or.inr ⟨h, g⟩)
    · exact Or.inr (Or.inr ⟨h.symm, g⟩)
  · exact Or.inr (Or.inl h)⟩

instance : IsTrans (V × K) pairLe := ⟨by
  intro a b c h g
  unfold pairLe at *
  rcases h with h | ⟨h, h'⟩ <;> rcases g with g | ⟨g, g'⟩
  · exact Or.inl (h.trans g)
  · exact Or.inl (g ▸ h)
  · exact Or.inl (h ▸ g)
  · exact Or.inr ⟨h.trans g, h'.trans g'⟩⟩

theorem pairLe_antisymm {a b : V × K} (h : pairLe a b) (g : pairLe b a) : a = b := by
  unfold pairLe at *
  rcases h with h | ⟨h, h'⟩ <;> rcases g with g | ⟨g, g'⟩
  · exact absurd (h.trans g) (lt_irrefl _)
  · exact absurd (g ▸ h) (lt_irrefl _)
  · exact absurd (h ▸ g) (lt_irrefl _)
  · exact Prod.ext h (le_antisymm h' g')

theorem pairLe_refl (a : V × K) : pairLe a a := Or.inr ⟨rfl, le_refl _⟩

/-- Swap the components. -/
def sw (e : K × V) : V × K := (e.2, e.1)

namespace BTree

instance keyTotal : Std.Total (fun a b : K × V => a.1 ≤ b.1) := ⟨fun a b => le_total a.1 b.1⟩
instance keyTrans : IsTrans (K × V) (fun a b => a.1 ≤ b.1) := ⟨fun _ _ _ h g => le_trans h g⟩

/-- The two indexes agree: the set is the map with the pairs swapped; no key twice; both sorted; the
counter is the sum of the sizes.  (Capacity is not part of it: it is exceeded inside `push`.) -/
structure WInv (sz : K × V → Nat) (t : BTree K V) : Prop where
  agree : t.set.Perm (t.map.map sw)
  nodup : (t.map.map Prod.fst).Nodup
  mapSorted : t.map.Pairwise (fun a b => a.1 ≤ b.1)
  setSorted : t.set.Pairwise pairLe
  size : t.totalSize = total sz t.map

/-- Invariant of a `BTree` between calls. -/
def Inv (sz : K × V → Nat) (t : BTree K V) : Prop := WInv sz t ∧ t.totalSize ≤ t.capacity

theorem new_inv (sz : K × V → Nat) (n : Nat) : Inv sz (new n : BTree K V) :=
  ⟨⟨by simp [new], by simp [new], by simp [new], by simp [new], by simp [new]⟩, by simp [new]⟩

theorem WInv.setNodup {sz : K × V → Nat} {t : BTree K V} (h : WInv sz t) : t.set.Nodup := by
  rw [h.agree.nodup_iff]
  have : (t.map.map Prod.fst) = (t.map.map sw).map Prod.snd := by
    rw [List.map_map]; rfl
  have hn := h.nodup
  rw [this] at hn
  exact hn.of_map

omit [LinearOrder V] in
theorem mapRemove_none {m : List (K × V)} {k : K} (h : (mapRemove m k).1 = none) :
    ¬ HasKey m k := by
  simp only [mapRemove, Option.map_eq_none_iff, List.find?_eq_none, decide_eq_true_eq] at h
  rintro ⟨v, hv⟩
  exact h _ hv rfl

omit [LinearOrder V] in
theorem filter_ne_perm {m r : List (K × V)} {k : K} {v : V} (hp : m.Perm ((k, v) :: r))
    (hn : (m.map Prod.fst).Nodup) :
    (m.filter (fun x => decide (x.1 ≠ k))).Perm r := by
  have h1 := hp.filter (fun x => decide (x.1 ≠ k))
  have hn' : ((((k, v) :: r).map Prod.fst)).Nodup := (hp.map Prod.fst).nodup_iff.1 hn
  simp only [List.map_cons, List.nodup_cons, List.mem_map] at hn'
  simp only [ne_eq, not_true_eq_false, decide_false, Bool.false_eq_true, not_false_eq_true,
    List.filter_cons_of_neg] at h1
  have h2 : r.filter (fun x => decide (¬ x.1 = k)) = r := by
    rw [List.filter_eq_self]
    intro x hx
    simp only [decide_eq_true_eq]
    intro hc
    exact hn'.1 ⟨x, hx, hc⟩
  rw [h2] at h1
  exact h1

omit [LinearOrder V] in
theorem eq_of_nodup_keys {m : List (K × V)} (hn : (m.map Prod.fst).Nodup) {k : K} {v v' : V}
    (h : (k, v) ∈ m) (h' : (k, v') ∈ m) : v = v' := by
  have := List.inj_on_of_nodup_map hn h h' rfl
  exact congrArg Prod.snd this

omit [LinearOrder V] in
theorem mapRemove_some {m : List (K × V)} {k : K} {v : V} (hn : (m.map Prod.fst).Nodup)
    (h : (mapRemove m k).1 = some v) : ((k, v) :: (mapRemove m k).2).Perm m := by
  classical
  simp only [mapRemove, Option.map_eq_some_iff] at h ⊢
  obtain ⟨⟨k', v'⟩, h1, rfl⟩ := h
  have h2 := List.find?_some h1
  have h3 := List.mem_of_find?_eq_some h1
  simp only [decide_eq_true_eq] at h2
  subst h2
  have hp := (List.perm_cons_erase h3)
  exact ((filter_ne_perm hp hn).cons _).trans hp.symm

omit [LinearOrder V] in
theorem mapRemove_of_mem {m : List (K × V)} {k : K} {v : V} (hn : (m.map Prod.fst).Nodup)
    (h : (k, v) ∈ m) : (mapRemove m k).1 = some v := by
  cases hr : (mapRemove m k).1 with
  | none => exact absurd ⟨v, h⟩ (mapRemove_none hr)
  | some v' =>
    have := (mapRemove_some hn hr).mem_iff.1 (List.mem_cons_self)
    rw [eq_of_nodup_keys hn h this]

theorem removeAll_spec : ∀ (l : List (K × V)) (m r : List (K × V)), (m.map Prod.fst).Nodup →
    m.Perm (l ++ r) → ∃ m', removeAll m (l.map sw) = .ok (l, m') ∧ m'.Perm r ∧ m'.Sublist m := by
  intro l
  induction l with
  | nil => intro m r _ hp; exact ⟨m, rfl, by simpa using hp, List.Sublist.refl _⟩
  | cons e l ih =>
    intro m r hn hp
    obtain ⟨k, v⟩ := e
    have hmem : (k, v) ∈ m := hp.mem_iff.2 (by simp)
    have h1 := mapRemove_of_mem hn hmem
    have h2 := mapRemove_some hn h1
    have hsub : ((mapRemove m k).2).Sublist m := List.filter_sublist
    have hn' : (((mapRemove m k).2).map Prod.fst).Nodup := hn.sublist (hsub.map _)
    have hp' : ((mapRemove m k).2).Perm (l ++ r) := by
      have := h2.trans hp
      simpa using this
    obtain ⟨m', g1, g2, g3⟩ := ih _ r hn' hp'
    refine ⟨m', ?_, g2, g3.trans hsub⟩
    rw [List.map_cons]
    simp only [sw, removeAll, h1, Res.unwrap_some, Res.ok_bind, if_true]
    rw [g1]
    rfl

theorem setInsert_perm {s : List (V × K)} {e : V × K} (h : e ∉ s) : (setInsert s e).Perm (e :: s) := by
  simp only [setInsert, h, if_false]
  exact List.perm_orderedInsert _ _ _

theorem setInsert_sorted {s : List (V × K)} {e : V × K} (h : s.Pairwise pairLe) :
    (setInsert s e).Pairwise pairLe := by
  unfold setInsert
  split
  · exact h
  · exact List.Pairwise.orderedInsert _ _ h

theorem mapInsert_perm {m : List (K × V)} {e : K × V} (h : ¬ HasKey m e.1) :
    (mapInsert m e).Perm (e :: m) := by
  unfold mapInsert
  rw [List.filter_eq_self.2]
  · exact List.perm_orderedInsert _ _ _
  · intro x hx
    simp only [decide_eq_true_eq]
    intro hc
    exact h ⟨x.2, by rw [← hc]; exact hx⟩

theorem mapInsert_sorted {m : List (K × V)} {e : K × V} (h : m.Pairwise (fun a b => a.1 ≤ b.1)) :
    (mapInsert m e).Pairwise (fun a b => a.1 ≤ b.1) :=
  List.Pairwise.orderedInsert _ _ (h.filter _)

/-- Inserting new, distinct keys keeps the two indexes in agreement. -/
theorem insert_spec : ∀ (l : List (K × V)) (t : BTree K V),
    t.set.Perm (t.map.map sw) → t.map.Pairwise (fun a b => a.1 ≤ b.1) → t.set.Pairwise pairLe →
    ((t.map ++ l).map Prod.fst).Nodup →
    let t' := t.insertUnchecked l
    t'.set.Perm (t'.map.map sw) ∧ t'.map.Pairwise (fun a b => a.1 ≤ b.1) ∧ t'.set.Pairwise pairLe ∧
    t'.map.Perm (t.map ++ l) ∧ t'.capacity = t.capacity ∧ t'.totalSize = t.totalSize := by
  intro l
  induction l with
  | nil => intro t h1 h2 h3 _; exact ⟨h1, h2, h3, by simp [insertUnchecked], rfl, rfl⟩
  | cons e l ih =>
    intro t h1 h2 h3 h4
    obtain ⟨k, v⟩ := e
    have hk : ¬ HasKey t.map k := by
      rw [hasKey_iff_mem_map]
      intro hc
      rw [List.map_append, List.nodup_append] at h4
      exact h4.2.2 k hc k (by simp) rfl
    have hs : (v, k) ∉ t.set := by
      intro hc
      have := h1.mem_iff.1 hc
      rw [List.mem_map] at this
      obtain ⟨x, hx, he⟩ := this
      simp only [sw, Prod.mk.injEq] at he
      exact hk ⟨x.2, by rw [← he.2]; exact hx⟩
    have p1 := setInsert_perm hs
    have p2 := mapInsert_perm (e := (k, v)) hk
    have := ih { t with set := setInsert t.set (v, k), map := mapInsert t.map (k, v) }
      (p1.trans ((h1.cons (v, k)).trans (by simpa [sw] using (p2.map sw).symm)))
      (mapInsert_sorted h2) (setInsert_sorted h3)
      (by
        have hp : (mapInsert t.map (k, v) ++ l).Perm (t.map ++ (k, v) :: l) := by perms [p2]
        exact ((hp.map Prod.fst).nodup_iff).2 h4)
    obtain ⟨g1, g2, g3, g4, g5, g6⟩ := this
    refine ⟨g1, g2, g3, ?_, g5, g6⟩
    simp only [insertUnchecked] at g4 ⊢
    perms [g4, p2]

/-- Complete description of `pop`. -/
theorem pop_cases (sz : K × V → Nat) (t : BTree K V) (n : Nat) (h : WInv sz t) :
    (t.map = [] ∧ t.pop sz n = .ok ([], t)) ∨
    (t.map ≠ [] ∧ t.totalSize ≤ n ∧ t.pop sz n = .ok t.flush) ∨
    (t.map ≠ [] ∧ n < t.totalSize ∧ ∃ (p q : List (K × V)) (t' : BTree K V),
      t.set = p.map sw ++ q.map sw ∧ q ≠ [] ∧ n ≤ total sz q ∧
      (∀ x q', q = x :: q' → q' = [] ∨ total sz q' < n) ∧
      t.pop sz n = .ok (q, t') ∧ t'.capacity = t.capacity ∧ WInv sz t' ∧
      (t'.map ++ q).Perm t.map ∧ t'.map.Perm p) := by
  by_cases hv : t.map = []
  · left; exact ⟨hv, by simp [pop, hv]⟩
  right
  by_cases ht : t.totalSize ≤ n
  · left; exact ⟨hv, ht, by simp [pop, hv, ht]⟩
  right
  refine ⟨hv, by omega, ?_⟩
  have hne : t.set ≠ [] := by
    intro hc
    have := h.agree
    rw [hc] at this
    exact hv (by simpa using List.nil_perm.1 this)
  obtain ⟨P, Q, h1, h2, h3, h4, h5⟩ :=
    findCut_spec (fun e : V × K => sz (e.2, e.1)) n t.set hne
  -- unswapped halves
  let us : V × K → K × V := fun e => (e.2, e.1)
  have hus : ∀ l : List (V × K), (l.map us).map sw = l := by
    intro l; rw [List.map_map]; simp [us, sw, Function.comp_def]
  have htq : ∀ l : List (V × K), total (fun e : V × K => sz (e.2, e.1)) l = total sz (l.map us) := by
    intro l; simp [total, us, Function.comp_def]
  have hset : t.set = (P.map us).map sw ++ (Q.map us).map sw := by rw [hus, hus]; exact h1
  have hmp : t.map.Perm (Q.map us ++ P.map us) := by
    have ha := h.agree
    rw [h1] at ha
    have hb := ha.map us
    rw [List.map_map, List.map_append] at hb
    have hid : (us ∘ sw : K × V → K × V) = id := rfl
    rw [hid, List.map_id] at hb
    perms [hb]
  have htot := total_perm sz hmp
  rw [total_append] at htot
  have hQne : Q.map us ≠ [] := by simpa using h2
  have hnq : n ≤ total sz (Q.map us) := by
    rcases h4 with h4 | h4
    · subst h4; simp at htot; have := h.size; omega
    · rw [← htq]; exact h4
  have hmin : ∀ x q', Q.map us = x :: q' → q' = [] ∨ total sz q' < n := by
    intro x q' hq
    cases Q with
    | nil => simp at hq
    | cons y Q' =>
      simp only [List.map_cons, List.cons.injEq] at hq
      rcases h5 y Q' rfl with g | g
      · left; rw [← hq.2, g]; rfl
      · right; rw [← hq.2, ← htq]; exact g
  cases Q with
  | nil => exact absurd rfl h2
  | cons e Q' =>
    have hss := h.setSorted
    have hnd := h.setNodup
    rw [h1] at hss hnd
    rw [List.pairwise_append] at hss
    rw [List.nodup_append] at hnd
    have hf1 : t.set.filter (fun x => decide (pairLe e x)) = e :: Q' := by
      rw [h1, List.filter_append]
      have a1 : P.filter (fun x => decide (pairLe e x)) = [] := by
        rw [List.filter_eq_nil_iff]
        intro x hx
        simp only [decide_eq_true_eq]
        intro hc
        have := pairLe_antisymm (hss.2.2 x hx e (by simp)) hc
        exact hnd.2.2 x hx e (by simp) this
      have a2 : (e :: Q').filter (fun x => decide (pairLe e x)) = e :: Q' := by
        rw [List.filter_eq_self]
        intro x hx
        simp only [decide_eq_true_eq]
        rcases List.mem_cons.1 hx with rfl | hx
        · exact pairLe_refl _
        · exact (List.pairwise_cons.1 hss.2.1).1 x hx
      rw [a1, a2]; rfl
    have hf2 : t.set.filter (fun x => decide (¬ pairLe e x)) = P := by
      rw [h1, List.filter_append]
      have a1 : P.filter (fun x => decide (¬ pairLe e x)) = P := by
        rw [List.filter_eq_self]
        intro x hx
        simp only [decide_eq_true_eq]
        intro hc
        have := pairLe_antisymm (hss.2.2 x hx e (by simp)) hc
        exact hnd.2.2 x hx e (by simp) this
      have a2 : (e :: Q').filter (fun x => decide (¬ pairLe e x)) = [] := by
        rw [List.filter_eq_nil_iff]
        intro x hx
        simp only [decide_eq_true_eq, not_not]
        rcases List.mem_cons.1 hx with rfl | hx
        · exact pairLe_refl _
        · exact (List.pairwise_cons.1 hss.2.1).1 x hx
      rw [a1, a2]; simp
    obtain ⟨m', g1, g2, g3⟩ := removeAll_spec ((e :: Q').map us) t.map (P.map us) h.nodup hmp
    rw [hus] at g1
    have hle : total sz ((e :: Q').map us) ≤ t.totalSize := by have := h.size; omega
    refine ⟨P.map us, (e :: Q').map us,
      { t with totalSize := t.totalSize - total sz ((e :: Q').map us), set := P, map := m' },
      hset, hQne, hnq, hmin, ?_, rfl, ⟨?_, ?_, ?_, ?_, ?_⟩, ?_, g2⟩
    · simp only [pop, hv, if_false, ht, h3, List.head?_cons, Res.unwrap_some, Res.ok_bind]
      rw [htq, Res.sub_ok hle, hf1, hf2]
      simp only [Res.ok_bind, g1, Res.pure_eq]
    · simp only
      have := (g2.map sw).symm
      rw [hus] at this
      exact this
    · exact h.nodup.sublist (g3.map _)
    · exact h.mapSorted.sublist g3
    · exact hss.1
    · simp only
      rw [total_perm sz g2]
      have := h.size
      omega
    · simp only
      perms [g2, hmp]

theorem pop_spec (sz : K × V → Nat) (t : BTree K V) (n : Nat) (h : WInv sz t) :
    ∃ out t', t.pop sz n = .ok (out, t') ∧ WInv sz t' ∧ t'.capacity = t.capacity ∧
      (t'.map ++ out).Perm t.map ∧ (t'.totalSize + n ≤ t.totalSize ∨ t'.map = []) := by
  rcases pop_cases sz t n h with ⟨h1, h2⟩ | ⟨h1, h2, h3⟩ |
      ⟨h1, h2, p, q, t', h3, h4, h5, h6, h7, h8, h9, h10, h11⟩
  · exact ⟨_, _, h2, h, rfl, by simp, Or.inr h1⟩
  · exact ⟨_, _, h3, ⟨by simp, by simp, by simp, by simp, by simp⟩, rfl, by simp, Or.inr rfl⟩
  · refine ⟨q, t', h7, h9, h8, h10, Or.inl ?_⟩
    have := total_perm sz h10
    rw [total_append] at this
    have a := h.size
    have b := h9.size
    omega

theorem take_spec (sz : K × V → Nat) (t : BTree K V) (k : K) (h : WInv sz t) :
    ∃ o t', t.take sz k = .ok (o, t') ∧ WInv sz t' ∧ t'.capacity = t.capacity ∧
      t'.totalSize ≤ t.totalSize ∧ t'.map.Sublist t.map ∧
      match o with
      | none => ¬ HasKey t.map k ∧ t' = t
      | some e => e.1 = k ∧ (e :: t'.map).Perm t.map := by
  unfold take
  cases hr : mapRemove t.map k with
  | mk o m =>
    cases o with
    | none =>
      exact ⟨none, t, rfl, h, rfl, le_refl _, List.Sublist.refl _,
        mapRemove_none (by rw [hr]), rfl⟩
    | some v =>
      have hp := mapRemove_some (v := v) (k := k) h.nodup (by rw [hr])
      have hsub : ((mapRemove t.map k).2).Sublist t.map := List.filter_sublist
      rw [hr] at hp hsub
      simp only at hp hsub
      have ht := total_perm sz hp
      simp only [total_cons] at ht
      have hs := h.size
      have hle : sz (k, v) ≤ t.totalSize := by omega
      refine ⟨some (k, v), { t with totalSize := t.totalSize - sz (k, v), set := t.set.erase (v, k), map := m },
        by simp only [Res.sub_ok hle, Res.ok_bind, Res.pure_eq], ⟨?_, ?_, ?_, ?_, ?_⟩, rfl, by simp, hsub, rfl, hp⟩
      · simp only
        have h1 := h.agree.trans (hp.map sw).symm
        have h2 := h1.erase (v, k)
        simpa [sw] using h2
      · exact h.nodup.sublist (hsub.map _)
      · exact h.mapSorted.sublist hsub
      · exact h.setSorted.sublist List.erase_sublist
      · simp only; omega

theorem takeMany_spec (sz : K × V → Nat) : ∀ (ks : List K) (t : BTree K V), WInv sz t →
    ∃ out t', defaultTakeMultiple (take sz) t ks = .ok (out, t') ∧ WInv sz t' ∧
      t'.capacity = t.capacity ∧ t'.totalSize ≤ t.totalSize ∧ (t'.map ++ out).Perm t.map ∧
      (∀ k ∈ ks, ¬ HasKey t'.map k) ∧ (∀ e ∈ out, e.1 ∈ ks) := by
  intro ks
  induction ks with
  | nil => intro t h; exact ⟨[], t, rfl, h, rfl, le_refl _, by simp, by simp, by simp⟩
  | cons k ks ih =>
    intro t h
    obtain ⟨o, t1, h1, h2, h3, h4, h5, h6⟩ := take_spec sz t k h
    obtain ⟨out, t2, g1, g2, g3, g4, g5, g6, g7⟩ := ih t1 h2
    refine ⟨o.toList ++ out, t2, by simp only [defaultTakeMultiple, h1, Res.ok_bind, g1, Res.pure_eq],
      g2, g3.trans h3, le_trans g4 h4, ?_, ?_, ?_⟩
    · cases o with
      | none => rw [h6.2] at g5; simpa using g5
      | some e =>
        have := h6.2
        simp only [Option.toList]
        perms [g5, this]
    · intro k' hk' hc
      rcases List.mem_cons.1 hk' with rfl | hk'
      · have hc1 : HasKey t1.map k' := by
          obtain ⟨v, hv⟩ := hc
          exact ⟨v, g5.mem_iff.1 (List.mem_append_left _ hv)⟩
        cases o with
        | none => rw [h6.2] at hc1; exact h6.1 hc1
        | some e =>
          have hn := ((h6.2.map Prod.fst).nodup_iff).2 h.nodup
          simp only [List.map_cons, List.nodup_cons] at hn
          rw [hasKey_iff_mem_map] at hc1
          exact hn.1 (by rw [h6.1]; exact hc1)
      · exact g6 k' hk' hc
    · intro e he
      rcases List.mem_append.1 he with he | he
      · cases o with
        | none => simp at he
        | some x => simp at he; subst he; simp [h6.1]
      · exact List.mem_cons_of_mem _ (g7 e he)

theorem nodup_append_keys {m l : List (K × V)} (hm : (m.map Prod.fst).Nodup)
    (hl : (l.map Prod.fst).Nodup) (hd : ∀ k ∈ l.map Prod.fst, ¬ HasKey m k) :
    ((m ++ l).map Prod.fst).Nodup := by
  rw [List.map_append, List.nodup_append]
  refine ⟨hm, hl, ?_⟩
  rintro a ha b hb rfl
  exact hd a hb (hasKey_iff_mem_map.2 ha)

/-- Complete description of `push` for a batch without repeated keys. -/
theorem push_cases (sz : K × V → Nat) (t : BTree K V) (l : List (K × V)) (h : Inv sz t)
    (hl : (l.map Prod.fst).Nodup) :
    ∃ out t', t.push sz l = .ok (out, t') ∧ Inv sz t' ∧ t'.capacity = t.capacity ∧
      (t'.map ++ out).Perm (t.map ++ l) ∧
      (total sz l ≤ t.capacity → ∃ kept, t'.map.Perm (kept ++ l) ∧ (kept ++ out).Perm t.map ∧
        ∀ k ∈ l.map Prod.fst, ¬ HasKey kept k) ∧
      (t.capacity < total sz l → ∃ rej, out = t.map ++ rej ∧ (t'.map ++ rej).Perm l ∧
        (∀ x ∈ t'.map, ∀ y ∈ rej, pairLe (sw x) (sw y))) := by
  by_cases hc : total sz l ≥ t.capacity
  · obtain ⟨g1, g2, g3, g4, g5, g6⟩ := insert_spec l (t.flush).2 (by simp [flush]) (by simp [flush])
      (by simp [flush]) (by simpa [flush] using hl)
    have hcap : ((t.flush).2.insertUnchecked l).capacity = t.capacity := g5
    have hm : ((t.flush).2.insertUnchecked l).map.Perm l := by simpa [flush] using g4
    have hW : WInv sz { (t.flush).2.insertUnchecked l with totalSize := total sz l } :=
      ⟨g1, ((hm.map Prod.fst).nodup_iff).2 hl, g2, g3, (total_perm sz hm).symm⟩
    by_cases hgt : total sz l > t.capacity
    · obtain ⟨out, t', p1, p2, p3, p4, p5⟩ := pop_spec sz _ (total sz l - t.capacity) hW
      refine ⟨t.map ++ out, t', ?_, ⟨p2, ?_⟩, p3.trans hcap, ?_, fun hle => by omega, fun _ => ⟨out, rfl, ?_, ?_⟩⟩
      · have : ({ (t.flush).2.insertUnchecked l with totalSize := total sz l } : BTree K V).capacity
            = t.capacity := hcap
        unfold push
        simp only [hc, if_true]
        simp only [hcap] at p1 ⊢
        simp only [hgt, if_true]
        rw [p1]
        rfl
      · rw [p3]
        simp only [hcap]
        rcases p5 with p5 | p5
        · simp only at p5; omega
        · have := p2.size; rw [p5] at this; simp at this; omega
      · simp only at p4
        perms [p4, hm]
      · simp only at p4
        exact p4.trans hm
      · rcases pop_cases sz _ (total sz l - t.capacity) hW with ⟨q1, q2⟩ | ⟨q1, q2, q3⟩ |
          ⟨q1, q2, p, q, t2, q3, q4, q5, q6, q7, q8, q9, q10, q11⟩
        · rw [q2] at p1; cases p1
          intro x _ y hy; simp at hy
        · rw [q3] at p1; cases p1
          intro x hx; simp at hx
        · rw [q7] at p1; cases p1
          have hs := hW.setSorted
          rw [q3, List.pairwise_append] at hs
          intro x hx y hy
          exact hs.2.2 _ (List.mem_map_of_mem (q11.mem_iff.1 hx)) _ (List.mem_map_of_mem hy)
    · have heq : total sz l = t.capacity := by omega
      refine ⟨t.map, { (t.flush).2.insertUnchecked l with totalSize := total sz l }, ?_, ⟨hW, ?_⟩, hcap, ?_, fun _ => ⟨[], by simpa using hm, by simp, by simp [HasKey]⟩, fun hlt => by omega⟩
      · simp only [push, hc, if_true, hcap, hgt, if_false, Res.pure_eq]
        rfl
      · simp only [hcap]; omega
      · simp only
        perms [hm]
  · obtain ⟨out, t1, h1, h2, h3, h4, h5, h6, h7⟩ := takeMany_spec sz (l.map Prod.fst) t h.1
    have hle : t1.totalSize ≤ t1.capacity := by have := h.2; omega
    have key : ∃ out' t2, (if t1.capacity - t1.totalSize < total sz l then
          t1.pop sz (total sz l - (t1.capacity - t1.totalSize)) else pure ([], t1)) = .ok (out', t2) ∧
        WInv sz t2 ∧ t2.capacity = t1.capacity ∧ (t2.map ++ out').Perm t1.map ∧
        t2.totalSize + total sz l ≤ t1.capacity := by
      by_cases hr : t1.capacity - t1.totalSize < total sz l
      · obtain ⟨out', t2, p1, p2, p3, p4, p5⟩ :=
          pop_spec sz t1 (total sz l - (t1.capacity - t1.totalSize)) h2
        refine ⟨out', t2, by simp only [hr, if_true, p1], p2, p3, p4, ?_⟩
        rcases p5 with p5 | p5
        · omega
        · have := p2.size; rw [p5] at this; simp at this; omega
      · exact ⟨[], t1, by simp only [hr, if_false, Res.pure_eq], h2, rfl, by simp, by omega⟩
    obtain ⟨out', t2, p1, p2, p3, p4, p5⟩ := key
    have hno : ∀ k ∈ l.map Prod.fst, ¬ HasKey t2.map k := by
      rintro k hk ⟨v, hv⟩
      exact h6 k hk ⟨v, p4.mem_iff.1 (List.mem_append_left _ hv)⟩
    have hnd := nodup_append_keys p2.nodup hl hno
    obtain ⟨g1, g2, g3, g4, g5, g6⟩ := insert_spec l t2 p2.agree p2.mapSorted p2.setSorted hnd
    refine ⟨out ++ out', { t2.insertUnchecked l with totalSize := (t2.insertUnchecked l).totalSize + total sz l },
      ?_, ⟨⟨g1, ?_, g2, g3, ?_⟩, ?_⟩, g5.trans (p3.trans h3), ?_, fun _ => ⟨t2.map, g4, ?_, hno⟩, fun hlt => by omega⟩
    · simp only [push, hc, if_false, h1, Res.ok_bind, Res.sub_ok hle]
      by_cases hr : t1.capacity - t1.totalSize < total sz l
      · simp only [hr, if_true] at p1 ⊢
        rw [p1]; rfl
      · simp only [hr, if_false, Res.pure_eq, Res.ok.injEq, Prod.mk.injEq] at p1 ⊢
        obtain ⟨rfl, rfl⟩ := p1
        rfl
    · exact ((g4.map Prod.fst).nodup_iff).2 hnd
    · simp only [g6, total_perm sz g4, total_append]
      have := p2.size
      omega
    · simp only [g6, g5]; omega
    · simp only
      perms [g4, p4, h5]
    · perms [p4, h5]

/-- A batch of new keys that fits (and is smaller than the capacity) evicts nothing. -/
theorem push_fits (sz : K × V → Nat) (t : BTree K V) (l : List (K × V)) (h : Inv sz t)
    (hlt : total sz l < t.capacity) (hfit : t.totalSize + total sz l ≤ t.capacity)
    (hnew : ∀ k ∈ l.map Prod.fst, ¬ HasKey t.map k) :
    ∃ t', t.push sz l = .ok ([], t') := by
  obtain ⟨out, t1, h1, h2, h3, h4, h5, h6, h7⟩ := takeMany_spec sz (l.map Prod.fst) t h.1
  have hout : out = [] := by
    rw [List.eq_nil_iff_forall_not_mem]
    intro e he
    exact hnew e.1 (h7 e he) ⟨e.2, h5.mem_iff.1 (List.mem_append_right _ he)⟩
  subst hout
  have hle : t1.totalSize ≤ t1.capacity := by have := h.2; omega
  have hc : ¬ total sz l ≥ t.capacity := by omega
  have hr : ¬ t1.capacity - t1.totalSize < total sz l := by omega
  exact ⟨_, by simp only [push, hc, if_false, h1, Res.ok_bind, Res.sub_ok hle, hr, Res.pure_eq]; rfl⟩

/-- `BTree` respects the container contract, for batches without repeated keys. -/
theorem lawful (sz : K × V → Nat) :
    Lawful (btreeBlock sz) (Inv sz) BTree.map (fun l : List (K × V) => (l.map Prod.fst).Nodup) where
  bounded s h := h.2
  empty_size s h he := by
    have h1 := h.1.size
    rw [he] at h1; simpa [btreeBlock] using h1
  contains s k h := by
    refine ⟨s.contains k, s, rfl, h, rfl, rfl, rfl, ?_⟩
    simp [contains, HasKey]
  take s k h := by
    obtain ⟨o, t', h1, h2, h3, h4, h5, h6⟩ := take_spec sz s k h.1
    refine ⟨o, t', h1, ⟨h2, by have := h.2; omega⟩, h3, ?_⟩
    cases o with
    | none => simp only at h6 ⊢; exact ⟨h6.1, by rw [h6.2]⟩
    | some e => exact h6
  takeMultiple s ks h := by
    obtain ⟨out, t', h1, h2, h3, h4, h5, h6, h7⟩ := takeMany_spec sz ks s h.1
    refine ⟨out, ks, t', by simp only [btreeBlock, h1, Res.ok_bind, Res.pure_eq],
      ⟨h2, by have := h.2; omega⟩, h3, h5, h7, ?_, List.Subperm.refl _, fun k hk _ => hk⟩
    rintro k hk ⟨v, hv⟩
    have := h5.mem_iff.2 hv
    rcases List.mem_append.1 this with g | g
    · exact absurd ⟨v, g⟩ (h6 k hk)
    · exact ⟨v, g⟩
  pop s n h := by
    obtain ⟨out, t', h1, h2, h3, h4, h5⟩ := pop_spec sz s n h.1
    refine ⟨out, t', h1, ⟨h2, ?_⟩, h3, h4, h5⟩
    rcases h5 with h5 | h5
    · have := h.2; omega
    · have := h2.size; rw [h5] at this; simp at this; omega
  push s l h hl := by
    obtain ⟨out, t', h1, h2, h3, h4, -⟩ := push_cases sz s l h hl
    exact ⟨out, t', h1, h2, h3, h4⟩
  flush s h := ⟨s.map, _, rfl, ⟨⟨by simp, by simp, by simp, by simp, by simp⟩, by simp⟩, rfl, by simp⟩

theorem flushes (sz : K × V → Nat) : Flushes (btreeBlock sz) (Inv sz) (BTree.map (K := K) (V := V)) :=
  fun s _ => ⟨s.map, _, rfl, rfl, List.Perm.refl _⟩

end BTree
end Byoc
