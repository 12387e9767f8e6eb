import Verif.Model.BTreeRc
import Verif.Proofs.BTree

/-! # `BTree` with batches of any kind -/

set_option linter.unusedSectionVars false

namespace Byoc

variable {K V : Type} [LinearOrder K] [LinearOrder V]

/-- What a `BTreeMap` keeps of a batch: of each key the last element. -/
def lastOfKey : List (K × V) → List (K × V)
  | [] => []
  | e :: l => if e.1 ∈ l.map Prod.fst then lastOfKey l else e :: lastOfKey l

omit [LinearOrder V] in
theorem lastOfKey_self {l : List (K × V)} (h : (l.map Prod.fst).Nodup) : lastOfKey l = l := by
  induction l with
  | nil => rfl
  | cons e l ih =>
    simp only [List.map_cons, List.nodup_cons] at h
    simp [lastOfKey, h.1, ih h.2]

omit [LinearOrder V] in
theorem lastOfKey_sublist (l : List (K × V)) : (lastOfKey l).Sublist l := by
  induction l with
  | nil => exact .slnil
  | cons e l ih =>
    unfold lastOfKey
    split
    · exact ih.cons _
    · exact ih.cons_cons _

theorem split_filters {P Q : List (V × K)} {e : V × K} (hs : (P ++ e :: Q).Pairwise pairLe)
    (hn : (P ++ e :: Q).Nodup) :
    (P ++ e :: Q).filter (fun x => decide (pairLe e x)) = e :: Q ∧
      (P ++ e :: Q).filter (fun x => decide (¬ pairLe e x)) = P := by
  rw [List.pairwise_append] at hs
  rw [List.nodup_append] at hn
  have hP : ∀ x ∈ P, ¬ pairLe e x := by
    intro x hx hc
    exact hn.2.2 x hx e (by simp) (pairLe_antisymm (hs.2.2 x hx e (by simp)) hc)
  have hQ : ∀ x ∈ e :: Q, pairLe e x := by
    intro x hx
    rcases List.mem_cons.1 hx with rfl | hx
    · exact pairLe_refl _
    · exact (List.pairwise_cons.1 hs.2.1).1 x hx
  constructor
  · rw [List.filter_append, List.filter_eq_nil_iff.2, List.filter_eq_self.2]
    · rfl
    · intro x hx; simpa using hQ x hx
    · intro x hx; simpa using hP x hx
  · rw [List.filter_append, List.filter_eq_self.2, List.filter_eq_nil_iff.2]
    · simp
    · intro x hx; simpa using hQ x hx
    · intro x hx; simpa using hP x hx

namespace RcTree

/-- The element of an entry. -/
def el (e : K × (V × Bool)) : K × V := (e.1, e.2.1)

/-- The pair of an entry. -/
def pr (e : K × (V × Bool)) : V × K := (e.2.1, e.1)

/-- What holds whatever the batches: a key is in the map once, its pair is in the set, and the counter is at least
the sum of the sizes of the pairs in the set. -/
structure WInv (sz : K × V → Nat) (t : RcTree K V) : Prop where
  nodup : (t.map.map Prod.fst).Nodup
  pairs : ∀ e ∈ t.map, pr e ∈ t.set
  sorted : t.set.Pairwise pairLe
  setNodup : t.set.Nodup
  size : total (fun e : V × K => sz (e.2, e.1)) t.set ≤ t.totalSize

theorem new_inv (sz : K × V → Nat) (n : Nat) : WInv sz (new n : RcTree K V) :=
  ⟨by simp [new], by simp [new], by simp [new], by simp [new], by simp [new]⟩

theorem flush_inv (sz : K × V → Nat) (t : RcTree K V) : WInv sz t.flush.2 :=
  ⟨by simp [flush], by simp [flush], by simp [flush], by simp [flush], by simp [flush]⟩

theorem elems_eq (t : RcTree K V) : t.elems = t.map.map el := rfl

theorem removeAll_ok : ∀ (l : List (V × K)) (m : List (K × (V × Bool))) {out m'},
    (m.map Prod.fst).Nodup → removeAll m l = .ok (out, m') →
    m'.Sublist m ∧ (m'.map el ++ out).Perm (m.map el) ∧ ∀ e ∈ m', e.1 ∉ l.map Prod.snd := by
  intro l
  induction l with
  | nil =>
    intro m out m' _ h
    cases h
    exact ⟨List.Sublist.refl _, by simp, by simp⟩
  | cons p l ih =>
    intro m out m' hn h
    obtain ⟨v, k⟩ := p
    simp only [removeAll] at h
    cases ho : (mapRemove m k).1 with
    | none => rw [ho] at h; cases h
    | some x =>
      obtain ⟨v', sh⟩ := x
      rw [ho] at h
      simp only [Res.unwrap_some, Res.ok_bind] at h
      split at h
      · have h2 := BTree.mapRemove_some hn ho
        have hsub : ((mapRemove m k).2).Sublist m := List.filter_sublist
        have hn' := hn.sublist (hsub.map Prod.fst)
        cases hr : removeAll (mapRemove m k).2 l with
        | panic => rw [hr] at h; cases h
        | ok y =>
          obtain ⟨out1, m1⟩ := y
          rw [hr] at h
          cases h
          obtain ⟨g1, g2, g3⟩ := ih _ hn' hr
          refine ⟨g1.trans hsub, ?_, ?_⟩
          · have := h2.map el
            simp only [List.map_cons, el] at this
            perms [g2, this]
          · intro e he
            simp only [List.map_cons, List.mem_cons, not_or]
            refine ⟨?_, g3 e he⟩
            have := g1.subset he
            simp only [mapRemove, List.mem_filter, decide_eq_true_eq] at this
            exact this.2
      · cases h

/-- `pop`, when it returns. -/
theorem pop_ok (sz : K × V → Nat) (t : RcTree K V) (n : Nat) (h : WInv sz t) {out t'}
    (hp : t.pop sz n = .ok (out, t')) :
    WInv sz t' ∧ t'.capacity = t.capacity ∧ (t'.elems ++ out).Perm t.elems := by
  unfold pop at hp
  split at hp
  · rename_i hm
    cases hp
    exact ⟨h, rfl, by simp⟩
  · rename_i hm
    split at hp
    · cases hp
      exact ⟨flush_inv sz t, rfl, by simp [elems]⟩
    · have hne : t.set ≠ [] := by
        intro hc
        obtain ⟨e, he⟩ := List.exists_mem_of_ne_nil _ hm
        have := h.pairs e he
        rw [hc] at this
        cases this
      obtain ⟨P, Q, h1, h2, h3, h4, h5⟩ := findCut_spec (fun e : V × K => sz (e.2, e.1)) n t.set hne
      cases Q with
      | nil => exact absurd rfl h2
      | cons e Q =>
        have hs := h.sorted
        have hn := h.setNodup
        have hz := h.size
        rw [h1] at hs hn hz
        rw [total_append] at hz
        obtain ⟨f1, f2⟩ := split_filters hs hn
        have hle : total (fun e : V × K => sz (e.2, e.1)) (e :: Q) ≤ t.totalSize := by omega
        simp only [h3, List.head?_cons, Res.unwrap_some, Res.ok_bind, Res.sub_ok hle] at hp
        rw [h1, f1, f2] at hp
        cases hr : removeAll t.map (e :: Q) with
        | panic => rw [hr] at hp; cases hp
        | ok y =>
          obtain ⟨out1, m1⟩ := y
          rw [hr] at hp
          cases hp
          obtain ⟨g1, g2, g3⟩ := removeAll_ok _ _ h.nodup hr
          refine ⟨⟨h.nodup.sublist (g1.map _), ?_, ?_, ?_, ?_⟩, rfl, g2⟩
          · intro x hx
            have := h.pairs x (g1.subset hx)
            rw [h1] at this
            rcases List.mem_append.1 this with g | g
            · exact g
            · exact absurd (List.mem_map_of_mem (f := Prod.snd) g) (g3 x hx)
          · exact (List.pairwise_append.1 hs).1
          · exact (List.nodup_append.1 hn).1
          · show total _ P ≤ t.totalSize - _
            omega

theorem take_ok (sz : K × V → Nat) (t : RcTree K V) (k : K) (h : WInv sz t) :
    ∃ o t', t.take sz k = .ok (o, t') ∧ WInv sz t' ∧ t'.capacity = t.capacity ∧
      (o.toList ++ t'.elems).Perm t.elems ∧ (∀ e ∈ o, e.1 = k) ∧ ∀ e ∈ t'.elems, e.1 ≠ k := by
  unfold take
  cases hr : mapRemove t.map k with
  | mk o m =>
    cases o with
    | none =>
      refine ⟨none, t, rfl, h, rfl, by simp, by simp, ?_⟩
      intro e he hc
      simp only [elems, List.mem_map] at he
      obtain ⟨x, hx, rfl⟩ := he
      exact BTree.mapRemove_none (k := k) (by rw [hr]) ⟨x.2, by rw [← hc]; exact hx⟩
    | some x =>
      obtain ⟨v, sh⟩ := x
      have hp := BTree.mapRemove_some (v := (v, sh)) (k := k) h.nodup (by rw [hr])
      have hsub : ((mapRemove t.map k).2).Sublist t.map := List.filter_sublist
      have hk : ∀ x ∈ (mapRemove t.map k).2, x.1 ≠ k := by
        intro x hx
        simp only [mapRemove, List.mem_filter, decide_eq_true_eq] at hx
        exact hx.2
      rw [hr] at hp hsub hk
      have hm : (v, k) ∈ t.set := h.pairs (k, (v, sh)) (hp.mem_iff.1 List.mem_cons_self)
      have hz := h.size
      rw [total_perm _ (List.perm_cons_erase hm), total_cons] at hz
      replace hz : sz (k, v) + total (fun e : V × K => sz (e.2, e.1)) (t.set.erase (v, k)) ≤ t.totalSize := hz
      have hle : sz (k, v) ≤ t.totalSize := by omega
      refine ⟨some (k, v), { t with totalSize := t.totalSize - sz (k, v), set := t.set.erase (v, k), map := m },
        by simp only [Res.sub_ok hle, Res.ok_bind, Res.pure_eq], ⟨?_, ?_, ?_, ?_, ?_⟩, rfl, ?_, by simp, ?_⟩
      · exact h.nodup.sublist (hsub.map _)
      · intro e he
        have h1 := h.pairs e (hsub.subset he)
        refine (List.mem_erase_of_ne ?_).2 h1
        intro hc
        exact hk e he (congrArg Prod.snd hc)
      · exact h.sorted.sublist List.erase_sublist
      · exact h.setNodup.sublist List.erase_sublist
      · show total _ (t.set.erase (v, k)) ≤ t.totalSize - sz (k, v)
        omega
      · have := hp.map el
        exact this
      · intro e he
        simp only [elems, List.mem_map] at he
        obtain ⟨x, hx, rfl⟩ := he
        exact hk x hx

theorem takeMany_ok (sz : K × V → Nat) : ∀ (ks : List K) (t : RcTree K V), WInv sz t →
    ∃ out t', defaultTakeMultiple (take sz) t ks = .ok (out, t') ∧ WInv sz t' ∧
      t'.capacity = t.capacity ∧ (t'.elems ++ out).Perm t.elems ∧ ∀ e ∈ t'.elems, e.1 ∉ ks := by
  intro ks
  induction ks with
  | nil => intro t h; exact ⟨[], t, rfl, h, rfl, by simp, by simp⟩
  | cons k ks ih =>
    intro t h
    obtain ⟨o, t1, h1, h2, h3, h4, h5, h6⟩ := take_ok sz t k h
    obtain ⟨out, t2, g1, g2, g3, g4, g5⟩ := ih t1 h2
    refine ⟨o.toList ++ out, t2, by simp only [defaultTakeMultiple, h1, Res.ok_bind, g1, Res.pure_eq],
      g2, g3.trans h3, by perms [g4, h4], ?_⟩
    intro e he
    simp only [List.mem_cons, not_or]
    exact ⟨h6 e (g4.mem_iff.1 (List.mem_append_left _ he)), g5 e he⟩

theorem setInsert_mem {s : List (V × K)} {e x : V × K} : x ∈ setInsert s e ↔ x = e ∨ x ∈ s := by
  unfold setInsert
  split
  · constructor
    · exact .inr
    · rintro (rfl | h) <;> assumption
  · simp

theorem setInsert_total {sz : V × K → Nat} {s : List (V × K)} {e : V × K} :
    total sz (setInsert s e) ≤ total sz s + sz e := by
  unfold setInsert
  split
  · omega
  · rw [total_perm sz (List.perm_orderedInsert _ _ _), total_cons]; omega

theorem setInsert_nodup {s : List (V × K)} {e : V × K} (h : s.Nodup) : (setInsert s e).Nodup := by
  unfold setInsert
  split
  · exact h
  · rename_i hn
    exact (List.perm_orderedInsert _ _ _).nodup_iff.2 (List.nodup_cons.2 ⟨hn, h⟩)

theorem mapInsert_perm' {W : Type} (m : List (K × W)) (e : K × W) :
    (mapInsert m e).Perm (e :: m.filter (fun x => decide (x.1 ≠ e.1))) :=
  List.perm_orderedInsert _ _ _

theorem filter_shadow (L : List (K × V)) (k : K) (v : V) (l : List (K × V)) :
    (((k, v) :: L.filter (fun x => decide (x.1 ≠ k))).filter (fun e => decide (e.1 ∉ l.map Prod.fst))).Perm
      (L.filter (fun e => decide (e.1 ∉ ((k, v) :: l).map Prod.fst)) ++
        if k ∈ l.map Prod.fst then [] else [(k, v)]) := by
  have r : (L.filter (fun x => decide (x.1 ≠ k))).filter (fun e => decide (e.1 ∉ l.map Prod.fst)) =
      L.filter (fun e => decide (e.1 ∉ ((k, v) :: l).map Prod.fst)) := by
    rw [List.filter_filter]
    apply List.filter_congr
    intro x _
    rw [Bool.eq_iff_iff]
    simp only [decide_eq_true_eq, Bool.and_eq_true, List.map_cons, List.mem_cons]
    tauto
  rw [List.filter_cons, r]
  by_cases hk : k ∈ l.map Prod.fst
  · simp only [hk, not_true, decide_false, Bool.false_eq_true, if_false, if_true, List.append_nil]
    exact .refl _
  · simp only [hk, not_false_eq_true, decide_true, if_true, if_false]
    exact (List.perm_append_singleton _ _).symm

/-- Inserting a batch: the keys of the batch are replaced, of each the last element is kept. -/
theorem insert_ok (sz : K × V → Nat) : ∀ (l : List (K × V)) (t : RcTree K V), (t.map.map Prod.fst).Nodup →
    (∀ e ∈ t.map, pr e ∈ t.set) → t.set.Pairwise pairLe → t.set.Nodup →
    let t' := t.insertUnchecked l
    (t'.map.map Prod.fst).Nodup ∧ (∀ e ∈ t'.map, pr e ∈ t'.set) ∧ t'.set.Pairwise pairLe ∧ t'.set.Nodup ∧
    total (fun e : V × K => sz (e.2, e.1)) t'.set ≤ total (fun e : V × K => sz (e.2, e.1)) t.set + total sz l ∧
    t'.capacity = t.capacity ∧ t'.totalSize = t.totalSize ∧
    t'.elems.Perm (t.elems.filter (fun e => decide (e.1 ∉ l.map Prod.fst)) ++ lastOfKey l) := by
  intro l
  induction l with
  | nil => intro t h1 h2 h3 h4; exact ⟨h1, h2, h3, h4, by simp [insertUnchecked], rfl, rfl, by simp [insertUnchecked, lastOfKey]⟩
  | cons e l ih =>
    intro t h1 h2 h3 h4
    obtain ⟨k, v⟩ := e
    have p := mapInsert_perm' t.map (k, (v, decide ((v, k) ∉ t.set)))
    obtain ⟨g1, g2, g3, g4, g5, g6, g7, g8⟩ := ih
      { t with set := setInsert t.set (v, k), map := mapInsert t.map (k, (v, decide ((v, k) ∉ t.set))) }
      (by
        refine ((p.map Prod.fst).nodup_iff).2 ?_
        simp only [List.map_cons, List.nodup_cons]
        refine ⟨?_, h1.sublist (List.filter_sublist.map _)⟩
        simp [List.mem_map, List.mem_filter])
      (by
        intro x hx
        rcases List.mem_cons.1 (p.mem_iff.1 hx) with rfl | hx
        · exact setInsert_mem.2 (.inl rfl)
        · exact setInsert_mem.2 (.inr (h2 x (List.mem_filter.1 hx).1)))
      (BTree.setInsert_sorted h3) (setInsert_nodup h4)
    refine ⟨g1, g2, g3, g4, ?_, g6, g7, ?_⟩
    · have := setInsert_total (sz := fun e : V × K => sz (e.2, e.1)) (s := t.set) (e := (v, k))
      simp only [insertUnchecked, total_cons] at g5 ⊢
      replace this : total (fun e : V × K => sz (e.2, e.1)) (setInsert t.set (v, k)) ≤
        total (fun e : V × K => sz (e.2, e.1)) t.set + sz (k, v) := this
      omega
    · simp only [insertUnchecked]
      refine g8.trans ?_
      have q := (p.map el).filter (fun e => decide (e.1 ∉ l.map Prod.fst))
      have r : List.map el (List.filter (fun x : K × (V × Bool) => decide (x.1 ≠ k)) t.map) =
          t.elems.filter (fun x => decide (x.1 ≠ k)) := by
        rw [elems_eq, List.filter_map]
        rfl
      have q' : (List.filter (fun e => decide (e.1 ∉ l.map Prod.fst))
          (List.map el (mapInsert t.map (k, (v, decide ((v, k) ∉ t.set)))))).Perm
          (List.filter (fun e => decide (e.1 ∉ ((k, v) :: l).map Prod.fst)) t.elems ++
            if k ∈ l.map Prod.fst then [] else [(k, v)]) := by
        refine q.trans ?_
        rw [List.map_cons, r]
        exact filter_shadow t.elems k v l
      have s : ((if k ∈ l.map Prod.fst then [] else [(k, v)]) ++ lastOfKey l) = lastOfKey ((k, v) :: l) := by
        by_cases hk : k ∈ l.map Prod.fst <;> simp [lastOfKey, hk]
      rw [← s]
      have q'' := q'.append_right (lastOfKey l)
      rw [List.append_assoc] at q''
      exact q''

/-- The container after a batch that is as large as it replaced everything, before the excess is popped. -/
def filled (sz : K × V → Nat) (t : RcTree K V) (l : List (K × V)) : RcTree K V :=
  { t.flush.2.insertUnchecked l with totalSize := total sz l }

theorem push_big {sz : K × V → Nat} {t : RcTree K V} {l : List (K × V)} (h : total sz l ≥ t.capacity) :
    t.push sz l = if total sz l > (filled sz t l).capacity then
        (do
          let (out, t') ← (filled sz t l).pop sz (total sz l - (filled sz t l).capacity)
          pure (t.elems ++ out, t'))
      else .ok (t.elems, filled sz t l) := by
  simp only [push, h, if_true]
  rfl

/-- `push`, when it returns. -/
theorem push_ok (sz : K × V → Nat) (t : RcTree K V) (l : List (K × V)) (h : WInv sz t) {out t'}
    (hp : t.push sz l = .ok (out, t')) :
    WInv sz t' ∧ t'.capacity = t.capacity ∧ (t'.elems ++ out).Perm (t.elems ++ lastOfKey l) := by
  by_cases hc : total sz l ≥ t.capacity
  · have hf := flush_inv sz t
    obtain ⟨g1, g2, g3, g4, g5, g6, g7, g8⟩ := insert_ok sz l t.flush.2 hf.nodup hf.pairs hf.sorted hf.setNodup
    have hW : WInv sz (filled sz t l) := ⟨g1, g2, g3, g4, by simpa [flush, filled] using g5⟩
    replace g8 : (filled sz t l).elems.Perm (lastOfKey l) := by simpa [flush, elems, filled] using g8
    have hcap : (filled sz t l).capacity = t.capacity := g6
    rw [push_big hc] at hp
    split at hp
    · cases hq : (filled sz t l).pop sz (total sz l - (filled sz t l).capacity) with
      | panic => rw [hq] at hp; cases hp
      | ok y =>
        obtain ⟨out1, t1⟩ := y
        rw [hq] at hp
        cases hp
        obtain ⟨p1, p2, p3⟩ := pop_ok sz _ _ hW hq
        exact ⟨p1, p2.trans hcap, by perms [p3, g8]⟩
    · cases hp
      exact ⟨hW, hcap, by perms [g8]⟩
  · unfold push at hp
    simp only [hc, if_false] at hp
    obtain ⟨out1, t1, h1, h2, h3, h4, h5⟩ := takeMany_ok sz (l.map Prod.fst) t h
    simp only [h1, Res.ok_bind] at hp
    cases hr : Res.sub t1.capacity t1.totalSize with
    | panic => rw [hr] at hp; cases hp
    | ok room =>
      rw [hr] at hp
      simp only [Res.ok_bind] at hp
      have key : ∃ out2 t2, WInv sz t2 ∧ t2.capacity = t1.capacity ∧ (t2.elems ++ out2).Perm t1.elems ∧
          out = out1 ++ out2 ∧
          t' = { t2.insertUnchecked l with totalSize := (t2.insertUnchecked l).totalSize + total sz l } := by
        split at hp
        · cases hq : t1.pop sz (total sz l - room) with
          | panic => rw [hq] at hp; cases hp
          | ok y =>
            obtain ⟨out2, t2⟩ := y
            obtain ⟨p1, p2, p3⟩ := pop_ok sz _ _ h2 hq
            rw [hq] at hp
            cases hp
            exact ⟨out2, t2, p1, p2, p3, rfl, rfl⟩
        · cases hp
          exact ⟨[], t1, h2, rfl, by simp, rfl, rfl⟩
      obtain ⟨out2, t2, k2, k3, k4, rfl, rfl⟩ := key
      obtain ⟨g1, g2, g3, g4, g5, g6, g7, g8⟩ := insert_ok sz l t2 k2.nodup k2.pairs k2.sorted k2.setNodup
      have hf : t2.elems.filter (fun e => decide (e.1 ∉ l.map Prod.fst)) = t2.elems := by
        rw [List.filter_eq_self]
        intro e he
        simpa using h5 e (k4.mem_iff.1 (List.mem_append_left _ he))
      rw [hf] at g8
      refine ⟨⟨g1, g2, g3, g4, ?_⟩, g6.trans (k3.trans h3), ?_⟩
      · have := k2.size
        show total _ (t2.insertUnchecked l).set ≤ (t2.insertUnchecked l).totalSize + total sz l
        rw [g7]
        omega
      · show ((t2.insertUnchecked l).elems ++ (out1 ++ out2)).Perm _
        perms [g8, k4, h4]

/-! ## The same container for batches without repeated keys -/

/-- An entry whose value the set shares. -/
def up (e : K × V) : K × (V × Bool) := (e.1, (e.2, true))

/-- The container of Model/BTree.lean with its counters: every value is shared by the two indexes. -/
def lift (t : BTree K V) : RcTree K V := ⟨t.capacity, t.totalSize, t.set, t.map.map up⟩

theorem lift_elems (t : BTree K V) : (lift t).elems = t.map := by
  simp [elems, lift, up, Function.comp_def]

theorem lift_flush (t : BTree K V) : (lift t).flush = (t.flush.1, lift t.flush.2) := by
  simp only [flush, lift_elems]
  rfl

theorem lift_contains (t : BTree K V) (k : K) : (lift t).contains k = t.contains k := by
  simp only [contains, BTree.contains, lift, List.any_map]
  rfl

theorem mapRemove_up (m : List (K × V)) (k : K) :
    mapRemove (m.map up) k = ((mapRemove m k).1.map fun v => (v, true), (mapRemove m k).2.map up) := by
  simp only [mapRemove, List.find?_map, List.filter_map, Option.map_map]
  rfl

theorem removeAll_up : ∀ (l : List (V × K)) (m : List (K × V)),
    removeAll (m.map up) l = (do let (out, m') ← BTree.removeAll m l; pure (out, m'.map up) : Res _) := by
  intro l
  induction l with
  | nil => intro m; rfl
  | cons p l ih =>
    intro m
    obtain ⟨v, k⟩ := p
    simp only [removeAll, BTree.removeAll, mapRemove_up]
    cases (mapRemove m k).1 with
    | none => rfl
    | some v' =>
      simp only [Option.map_some, Res.unwrap_some, Res.ok_bind, Bool.true_eq_false, or_false]
      split
      · rw [ih]
        cases BTree.removeAll (mapRemove m k).2 l <;> rfl
      · rfl

theorem lift_pop (sz : K × V → Nat) (t : BTree K V) (n : Nat) :
    (lift t).pop sz n = (do let (out, t') ← t.pop sz n; pure (out, lift t') : Res _) := by
  unfold pop BTree.pop
  have hm : (lift t).map = [] ↔ t.map = [] := by simp [lift]
  by_cases h1 : t.map = []
  · simp [h1, hm.2 h1]
  · have h1' : ¬ (lift t).map = [] := fun h => h1 (hm.1 h)
    simp only [h1, h1', if_false]
    by_cases h2 : t.totalSize ≤ n
    · have h2' : (lift t).totalSize ≤ n := h2
      simp only [h2, h2', if_true, lift_flush]
      rfl
    · have h2' : ¬ (lift t).totalSize ≤ n := h2
      simp only [h2, h2', if_false]
      show (do
        let e ← Res.unwrap (findCutAtSize (fun e : V × K => sz (e.2, e.1)) n t.set).2.2
        let total ← Res.sub t.totalSize (findCutAtSize (fun e : V × K => sz (e.2, e.1)) n t.set).2.1
        let (out, map) ← removeAll (t.map.map up) (t.set.filter (fun x => decide (pairLe e x)))
        pure (out, (⟨t.capacity, total, t.set.filter (fun x => decide (¬ pairLe e x)), map⟩ : RcTree K V)) : Res _) = _
      cases (findCutAtSize (fun e : V × K => sz (e.2, e.1)) n t.set).2.2 with
      | none => rfl
      | some e =>
        simp only [Res.unwrap_some, Res.ok_bind]
        cases Res.sub t.totalSize (findCutAtSize (fun e : V × K => sz (e.2, e.1)) n t.set).2.1 with
        | panic => rfl
        | ok x =>
          simp only [Res.ok_bind, removeAll_up]
          cases BTree.removeAll t.map (t.set.filter (fun x => decide (pairLe e x))) <;> rfl

theorem lift_take (sz : K × V → Nat) (t : BTree K V) (k : K) :
    (lift t).take sz k = (do let (o, t') ← t.take sz k; pure (o, lift t') : Res _) := by
  unfold take BTree.take
  have : mapRemove (lift t).map k = _ := mapRemove_up t.map k
  rw [this]
  cases mapRemove t.map k with
  | mk o m =>
    cases o with
    | none => rfl
    | some v =>
      simp only [Option.map_some]
      show (do
        let total ← Res.sub t.totalSize (sz (k, v))
        pure (some (k, v), (⟨t.capacity, total, t.set.erase (v, k), m.map up⟩ : RcTree K V)) : Res _) = _
      cases Res.sub t.totalSize (sz (k, v)) <;> rfl

theorem lift_takeMany (sz : K × V → Nat) : ∀ (ks : List K) (t : BTree K V),
    defaultTakeMultiple (take sz) (lift t) ks =
      (do let (o, t') ← defaultTakeMultiple (BTree.take sz) t ks; pure (o, lift t') : Res _) := by
  intro ks
  induction ks with
  | nil => intro t; rfl
  | cons k ks ih =>
    intro t
    simp only [defaultTakeMultiple, lift_take]
    cases t.take sz k with
    | panic => rfl
    | ok y =>
      obtain ⟨o, t1⟩ := y
      simp only [Res.ok_bind, Res.pure_eq, ih]
      cases defaultTakeMultiple (BTree.take sz) t1 ks <;> rfl

theorem mapInsert_up (m : List (K × V)) (e : K × V) : mapInsert (m.map up) (up e) = (mapInsert m e).map up := by
  unfold mapInsert
  rw [List.filter_map]
  have : ∀ L : List (K × V), List.orderedInsert (fun a b : K × (V × Bool) => a.1 ≤ b.1) (up e) (L.map up) =
      (List.orderedInsert (fun a b : K × V => a.1 ≤ b.1) e L).map up := by
    intro L
    induction L with
    | nil => rfl
    | cons a L ih =>
      simp only [List.map_cons, List.orderedInsert_cons]
      show (if e.1 ≤ a.1 then _ else _) = _
      split
      · rfl
      · rw [ih]; rfl
  exact this _

theorem lift_insert : ∀ (l : List (K × V)) (t : BTree K V), t.set.Perm (t.map.map sw) →
    ((t.map ++ l).map Prod.fst).Nodup → (lift t).insertUnchecked l = lift (t.insertUnchecked l) := by
  intro l
  induction l with
  | nil => intro t _ _; rfl
  | cons e l ih =>
    intro t h1 h4
    obtain ⟨k, v⟩ := e
    have hk : ¬ HasKey t.map k := by
      rw [hasKey_iff_mem_map]
      intro hc
      rw [List.map_append, List.nodup_append] at h4
      exact h4.2.2 k hc k (by simp) rfl
    have hs : (v, k) ∉ t.set := by
      intro hc
      have := h1.mem_iff.1 hc
      rw [List.mem_map] at this
      obtain ⟨x, hx, he⟩ := this
      simp only [sw, Prod.mk.injEq] at he
      exact hk ⟨x.2, by rw [← he.2]; exact hx⟩
    have p1 := BTree.setInsert_perm hs
    have p2 := BTree.mapInsert_perm (e := (k, v)) hk
    have hi := ih { t with set := setInsert t.set (v, k), map := mapInsert t.map (k, v) }
      (p1.trans ((h1.cons (v, k)).trans (by simpa [sw] using (p2.map sw).symm)))
      (by
        have hp : (mapInsert t.map (k, v) ++ l).Perm (t.map ++ (k, v) :: l) := by perms [p2]
        exact ((hp.map Prod.fst).nodup_iff).2 h4)
    simp only [insertUnchecked, BTree.insertUnchecked]
    rw [← hi]
    congr 1
    have hm := mapInsert_up t.map (k, v)
    have hs' : decide ((v, k) ∉ (lift t).set) = true := decide_eq_true hs
    rw [hs']
    show (⟨t.capacity, t.totalSize, setInsert t.set (v, k), mapInsert (t.map.map up) (up (k, v))⟩ : RcTree K V) = _
    rw [hm]
    rfl

theorem lift_push (sz : K × V → Nat) (t : BTree K V) (l : List (K × V)) (h : BTree.Inv sz t)
    (hl : (l.map Prod.fst).Nodup) :
    (lift t).push sz l = (do let (out, t') ← t.push sz l; pure (out, lift t') : Res _) := by
  by_cases hc : total sz l ≥ t.capacity
  · rw [push_big (t := lift t) hc]
    have hi := lift_insert l t.flush.2 (by simp [BTree.flush]) (by simpa [BTree.flush] using hl)
    have hf : filled sz (lift t) l = lift { t.flush.2.insertUnchecked l with totalSize := total sz l } := by
      unfold filled
      rw [lift_flush]
      simp only [hi]
      rfl
    rw [hf, lift_pop, lift_elems]
    simp only [BTree.push, hc, if_true]
    show (if total sz l > (t.flush.2.insertUnchecked l).capacity then _ else _) = _
    by_cases hg : total sz l > (t.flush.2.insertUnchecked l).capacity
    · simp only [hg, if_true]
      show (do
        let (out, t') ← (do
          let (out, t') ← BTree.pop sz _ (total sz l - (t.flush.2.insertUnchecked l).capacity)
          pure (out, lift t') : Res _)
        pure (t.map ++ out, t') : Res _) = _
      cases BTree.pop sz _ (total sz l - (t.flush.2.insertUnchecked l).capacity) <;> rfl
    · simp only [hg, if_false]
      rfl
  · have hc' : ¬ total sz l ≥ (lift t).capacity := hc
    obtain ⟨out, t1, h1, h2, h3, h4, h5, h6, h7⟩ := BTree.takeMany_spec sz (l.map Prod.fst) t h.1
    have hle : t1.totalSize ≤ t1.capacity := by have := h.2; omega
    have hsub : Res.sub (lift t1).capacity (lift t1).totalSize = .ok (t1.capacity - t1.totalSize) := Res.sub_ok hle
    have hno : ∀ t2 : BTree K V, BTree.WInv sz t2 → (∀ e ∈ t2.map, e ∈ t1.map) →
        (lift t2).insertUnchecked l = lift (t2.insertUnchecked l) := by
      intro t2 hw hm
      refine lift_insert l t2 hw.agree (BTree.nodup_append_keys hw.nodup hl ?_)
      rintro k hk ⟨v, hv⟩
      exact h6 k hk ⟨v, hm _ hv⟩
    simp only [push, hc', if_false, BTree.push, hc, lift_takeMany, h1, Res.ok_bind, Res.pure_eq, hsub, Res.sub_ok hle]
    split
    · rw [lift_pop]
      obtain ⟨out', t2, p1, p2, p3, p4, p5⟩ :=
        BTree.pop_spec sz t1 (total sz l - (t1.capacity - t1.totalSize)) h2
      rw [p1]
      simp only [Res.ok_bind, Res.pure_eq]
      rw [hno t2 p2 fun e he => p4.mem_iff.1 (List.mem_append_left _ he)]
      rfl
    · simp only [Res.ok_bind]
      rw [hno t1 h2 fun e he => he]
      rfl

/-- Calls with batches without repeated keys: the two models give the same answers. -/
theorem lift_observe (sz : K × V → Nat) (t : BTree K V) (h : BTree.Inv sz t) (op : Op K V)
    (hop : op.Ok (fun l => (l.map Prod.fst).Nodup)) :
    (rcBlock sz).observe (lift t) op =
      (do let (r, t') ← (btreeBlock sz).observe t op; pure (r, lift t') : Res _) := by
  cases op with
  | contains k => simp only [Block.observe, rcBlock, btreeBlock, lift_contains]; rfl
  | take k =>
    simp only [Block.observe, rcBlock, btreeBlock, lift_take]
    cases t.take sz k <;> rfl
  | takeMultiple ks =>
    simp only [Block.observe, rcBlock, btreeBlock, lift_takeMany]
    cases defaultTakeMultiple (BTree.take sz) t ks <;> rfl
  | pop n =>
    simp only [Block.observe, rcBlock, btreeBlock, lift_pop]
    cases t.pop sz n <;> rfl
  | push l =>
    simp only [Block.observe, rcBlock, btreeBlock, lift_push sz t l h hop]
    cases t.push sz l <;> rfl
  | flush => simp only [Block.observe, rcBlock, btreeBlock, lift_flush]; rfl

end RcTree
end Byoc
