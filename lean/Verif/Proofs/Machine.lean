import Verif.Model.Machine
import Verif.Proofs.Stack
import Verif.Proofs.BTree

/-! # With sizes below `2 ^ 64`, the machine computes what the model on natural numbers computes -/

namespace Byoc

variable {K V : Type}

/-- What the two profiles have in common: the exact result when there is neither overflow nor underflow. -/
structure Arith.Law (ar : Arith) : Prop where
  add : ∀ a b, a + b < word → ar.add a b = .ok (a + b)
  sub : ∀ a b, b ≤ a → a < word → ar.sub a b = .ok (a - b)

theorem Arith.checked_law : Arith.checked.Law where
  add a b h := by simp [checked, h]
  sub a b h _ := by simp [checked, h]

theorem Arith.wrapping_law : Arith.wrapping.Law where
  add a b h := by simp [wrapping, Nat.mod_eq_of_lt h]
  sub a b h h' := by
    have e : a + (word - b) = (a - b) + word := by omega
    simp only [wrapping, e, Nat.add_mod_right]
    rw [Nat.mod_eq_of_lt (by omega)]

section
variable {ar : Arith} (hA : ar.Law)
include hA

theorem sumW_eq {E : Type} (sz : E → Nat) : ∀ (l : List E) (acc : Nat), acc + total sz l < word →
    sumW ar sz l acc = .ok (acc + total sz l)
  | [], acc, _ => by simp [sumW]
  | e :: l, acc, h => by
    simp only [total_cons] at h
    rw [sumW, hA.add acc (sz e) (by omega), Res.ok_bind, sumW_eq sz l _ (by omega), total_cons, Nat.add_assoc]

theorem sumResW_eq {S : Type} (f : S → Res Nat) (g : S → Nat) : ∀ (l : List S) (acc : Nat),
    (∀ c ∈ l, f c = .ok (g c)) → acc + (l.map g).sum < word → sumResW ar f l acc = .ok (acc + (l.map g).sum)
  | [], acc, _, _ => by simp [sumResW]
  | c :: l, acc, hf, h => by
    simp only [List.map_cons, List.sum_cons] at h ⊢
    rw [sumResW, hf c (by simp), Res.ok_bind, hA.add acc (g c) (by omega), Res.ok_bind,
      sumResW_eq f g l _ (fun d hd => hf d (by simp [hd])) (by omega), Nat.add_assoc]

theorem findCutGoW_eq {E : Type} (sz : E → Nat) (size : Nat) : ∀ (l : List E) (i acc : Nat) (o : Option E),
    acc + total sz l < word → findCutGoW ar sz size l (i, acc, o) = .ok (findCutGo sz size l (i, acc, o))
  | [], i, acc, o, _ => rfl
  | e :: l, i, acc, o, h => by
    simp only [total_cons] at h
    rw [findCutGoW, hA.add acc (sz e) (by omega), Res.ok_bind, findCutGo]
    split
    · exact findCutGoW_eq sz size l _ _ _ (by omega)
    · rfl

theorem findCutAtSizeW_eq {E : Type} (sz : E → Nat) (size : Nat) (l : List E) (h : total sz l < word) :
    findCutAtSizeW ar sz size l = .ok (findCutAtSize sz size l) :=
  findCutGoW_eq hA sz size _ _ _ _ (by rw [total_reverse]; omega)

namespace Array

theorem popW_eq (sz : K × V → Nat) (srt : Sorter (K × V)) (a : Array K V) (n : Nat) (h : Inv sz a)
    (hc : a.capacity < word) : a.popW ar sz srt n = a.pop sz srt n := by
  obtain ⟨h1, h2⟩ := h
  unfold popW pop
  split
  · rfl
  split
  · rfl
  rename_i hv _
  have hp := total_perm sz (srt.perm a.values)
  have hs : srt.run a.values ≠ [] := fun e => hv (by have := (srt.perm a.values).length_eq; rw [e] at this; simpa using this.symm)
  obtain ⟨p, q, g1, -, g3, -, -⟩ := findCut_spec sz n _ hs
  dsimp only
  rw [findCutAtSizeW_eq hA _ _ _ (by omega), Res.ok_bind, g3]
  have : total sz q ≤ a.totalSize := by rw [h1, ← hp, g1, total_append]; omega
  simp only [hA.sub _ _ this (by omega), Res.sub_ok this]

theorem pushW_eq (sz : K × V → Nat) (srt srtS : Sorter (K × V)) (a : Array K V) (l : List (K × V)) (h : Inv sz a)
    (hc : a.capacity < word) (hl : total sz l < word) : a.pushW ar sz srt srtS l = a.push sz srt srtS l := by
  obtain ⟨h1, h2⟩ := h
  unfold pushW push
  rw [sumW_eq hA sz l 0 (by omega), Res.ok_bind, hA.sub _ _ h2 hc, Res.ok_bind, Res.sub_ok h2, Res.ok_bind, Nat.zero_add]
  simp only []
  split
  · rw [hA.add _ _ (by omega)]; rfl
  split
  · rfl
  split
  · rename_i g
    have hp := total_perm sz (srtS.perm l)
    have hs : srtS.run l ≠ [] := fun e => by
      rw [e] at hp; simp only [total_nil] at hp; omega
    obtain ⟨p, q, g1, -, g3, -, -⟩ := findCut_spec sz (total sz l - a.capacity) _ hs
    rw [hA.sub _ _ (by omega) hl, Res.ok_bind, findCutAtSizeW_eq hA _ _ _ (by omega), Res.ok_bind, g3]
    have : total sz q ≤ total sz l := by rw [← hp, g1, total_append]; omega
    simp only [hA.sub _ _ this hl, Res.sub_ok this]
  · rename_i g1 g2 g3
    rw [hA.sub _ _ (by omega) hl, Res.ok_bind, popW_eq hA sz srt a _ ⟨h1, h2⟩ hc]
    obtain ⟨out, a', e, i1, i2, i3, i4⟩ := pop_spec sz srt a (total sz l - (a.capacity - a.totalSize)) ⟨h1, h2⟩
    rw [e, Res.ok_bind, Res.ok_bind]
    have : a'.totalSize + total sz l < word := by
      rcases i4 with i4 | i4
      · omega
      · have := i1.1; rw [i4] at this; simp only [total_nil] at this; omega
    simp only [hA.add _ _ this, Res.ok_bind]

theorem takeW_eq [DecidableEq K] (sz : K × V → Nat) (a : Array K V) (k : K) (h : Inv sz a) (hc : a.capacity < word) :
    a.takeW ar sz k = a.take sz k := by
  obtain ⟨h1, h2⟩ := h
  unfold takeW take
  cases hf : findKey a.values k with
  | none => rfl
  | some i =>
    obtain ⟨e, g, -⟩ := findKey_some hf
    have ht := total_perm sz (swapRemove_perm g)
    simp only [total_cons] at ht
    have : sz e ≤ a.totalSize := by omega
    simp only [g, Res.unwrap_some, Res.ok_bind, hA.sub _ _ this (by omega), Res.sub_ok this]

theorem takeMultipleLoopW_eq [LinearOrder K] (sz : K × V → Nat) : ∀ (i : Nat) (a : Array K V) (keys : List K)
    (ret : List (K × V)), Inv sz a → a.capacity < word →
    takeMultipleLoopW ar sz i a keys ret = takeMultipleLoop sz i a keys ret
  | 0, a, keys, ret, _, _ => rfl
  | i + 1, a, keys, ret, h, hc => by
    unfold takeMultipleLoopW takeMultipleLoop
    cases he : a.values[i]? with
    | none => rfl
    | some e =>
      simp only [Res.unwrap_some, Res.ok_bind]
      cases bsearch keys e.1 with
      | none => exact takeMultipleLoopW_eq sz i a keys ret h hc
      | some j =>
        obtain ⟨h1, h2⟩ := h
        have ht := total_perm sz (swapRemove_perm he)
        simp only [total_cons] at ht
        have : sz e ≤ a.totalSize := by omega
        simp only [hA.sub _ _ this (by omega), Res.sub_ok this, Res.ok_bind]
        exact takeMultipleLoopW_eq sz i _ _ _ ⟨by simp only; omega, by simp only; omega⟩ hc

end Array

namespace BTree

variable [LinearOrder K] [LinearOrder V]

theorem popW_eq (sz : K × V → Nat) (t : BTree K V) (n : Nat) (h : WInv sz t) (hc : t.totalSize < word) :
    t.popW ar sz n = t.pop sz n := by
  unfold popW pop
  split
  · rfl
  split
  · rfl
  rename_i hv _
  have ht : total (fun e : V × K => sz (e.2, e.1)) t.set = t.totalSize := by
    rw [total_perm _ h.agree, h.size]
    simp only [total, List.map_map]
    rfl
  have hs : t.set ≠ [] := fun e => hv (by have := h.agree.length_eq; rw [e] at this; simpa using this.symm)
  obtain ⟨p, q, g1, -, g3, -, -⟩ := findCut_spec (fun e : V × K => sz (e.2, e.1)) n _ hs
  rw [findCutAtSizeW_eq hA _ _ _ (by omega), Res.ok_bind, g3]
  have : total (fun e : V × K => sz (e.2, e.1)) q ≤ t.totalSize := by rw [← ht, g1, total_append]; omega
  simp only [hA.sub _ _ this hc, Res.sub_ok this]

theorem takeW_eq (sz : K × V → Nat) (t : BTree K V) (k : K) (h : WInv sz t) (hc : t.totalSize < word) :
    t.takeW ar sz k = t.take sz k := by
  unfold takeW take
  cases hr : mapRemove t.map k with
  | mk o m =>
    cases o with
    | none => rfl
    | some v =>
      have hp := total_perm sz (mapRemove_some (v := v) (k := k) h.nodup (by rw [hr]))
      simp only [total_cons] at hp
      have h1 := h.size
      have : sz (k, v) ≤ t.totalSize := by omega
      simp only [hA.sub _ _ this hc, Res.sub_ok this]

theorem takeManyW_eq (sz : K × V → Nat) : ∀ (ks : List K) (t : BTree K V), WInv sz t → t.totalSize < word →
    defaultTakeMultiple (takeW ar sz) t ks = defaultTakeMultiple (take sz) t ks
  | [], t, _, _ => rfl
  | k :: ks, t, h, hc => by
    obtain ⟨o, t1, h1, h2, h3, h4, -⟩ := take_spec sz t k h
    simp only [defaultTakeMultiple, takeW_eq hA sz t k h hc, h1, Res.ok_bind,
      takeManyW_eq sz ks t1 h2 (by omega)]

theorem pushW_eq (sz : K × V → Nat) (t : BTree K V) (l : List (K × V)) (h : Inv sz t)
    (hl : (l.map Prod.fst).Nodup) (hc : t.capacity < word) (ht : total sz l < word) :
    t.pushW ar sz l = t.push sz l := by
  unfold pushW push
  rw [sumW_eq hA sz l 0 (by omega), Res.ok_bind, Nat.zero_add]
  dsimp only
  split
  · obtain ⟨g1, g2, g3, g4, g5, g6⟩ := insert_spec l (t.flush).2 (by simp [flush]) (by simp [flush])
      (by simp [flush]) (by simpa [flush] using hl)
    have hcap : ((t.flush).2.insertUnchecked l).capacity = t.capacity := g5
    have hm : ((t.flush).2.insertUnchecked l).map.Perm l := by simpa [flush] using g4
    have hW : WInv sz { (t.flush).2.insertUnchecked l with totalSize := total sz l } :=
      ⟨g1, ((hm.map Prod.fst).nodup_iff).2 hl, g2, g3, (total_perm sz hm).symm⟩
    split
    · rename_i g
      rw [hA.sub _ _ (by omega) ht, Res.ok_bind, popW_eq hA sz _ _ hW ht]
    · rfl
  · rw [takeManyW_eq hA sz _ t h.1 (by have := h.2; omega)]
    obtain ⟨out, t1, h1, h2, h3, h4, h5, h6, h7⟩ := takeMany_spec sz (l.map Prod.fst) t h.1
    have hle : t1.totalSize ≤ t1.capacity := by have := h.2; omega
    have hn : ∀ (t2 : BTree K V), WInv sz t2 → (∀ e ∈ t2.map, e ∈ t1.map) →
        (t2.insertUnchecked l).totalSize = t2.totalSize := by
      intro t2 w hsub
      refine (insert_spec l t2 w.agree w.mapSorted w.setSorted
        (nodup_append_keys w.nodup hl fun k hk hh => ?_)).2.2.2.2.2
      obtain ⟨v, hv⟩ := hh
      exact h6 k hk ⟨v, hsub _ hv⟩
    simp only [h1, Res.ok_bind, hA.sub _ _ hle (by omega), Res.sub_ok hle]
    split
    · rename_i g1 g2
      obtain ⟨out', t2, i1, i2, i3, i4, i5⟩ := pop_spec sz t1 (total sz l - (t1.capacity - t1.totalSize)) h2
      rw [hA.sub _ _ (by omega) ht, Res.ok_bind, popW_eq hA sz _ _ h2 (by omega), i1]
      simp only [Res.ok_bind]
      rw [hA.add, Res.ok_bind]
      rw [hn t2 i2 fun e he => i4.mem_iff.1 (List.mem_append_left _ he)]
      rcases i5 with i5 | i5
      · omega
      · have := i2.size; rw [i5] at this; simp only [total_nil] at this; omega
    · simp only [Res.pure_eq, Res.ok_bind]
      rw [hA.add, Res.ok_bind]
      rw [hn t1 h2 fun e he => he]
      omega

end BTree
end

/-- The machine agrees with the model, in the states where the capacity is a machine word, as long as the size
of all the elements together is one (`Small`). -/
structure Fits (B : Block K V) (W : WBlock K V B.State) (Inv : B.State → Prop)
    (elems : B.State → List (K × V)) (Small : List (K × V) → Prop) (Pre : List (K × V) → Prop) (p : Prop) : Prop where
  mono : ∀ l l', l.Subperm l' → Small l' → Small l
  capacity : ∀ s, Inv s → B.capacity s < word → W.capacity s = .ok (B.capacity s)
  size : ∀ s, Inv s → B.capacity s < word → W.size s = .ok (B.size s)
  contains : ∀ s k, Inv s → B.capacity s < word → W.contains s k = B.contains s k
  take : ∀ s k, Inv s → B.capacity s < word → W.take s k = B.take s k
  takeMultiple : ∀ s ks, Inv s → B.capacity s < word → ks.length < word → W.takeMultiple s ks = B.takeMultiple s ks
  pop : p → ∀ s n, Inv s → B.capacity s < word → n < word → W.pop s n = B.pop s n
  push : ∀ s l, Inv s → B.capacity s < word → Pre l → Small (elems s ++ l) → W.push s l = B.push s l
  flush : ∀ s, Inv s → B.capacity s < word → Small (elems s) → W.flush s = B.flush s

theorem total_subperm {E : Type} (sz : E → Nat) {l l' : List E} (h : l.Subperm l') : total sz l ≤ total sz l' := by
  obtain ⟨m, hp, hs⟩ := h
  rw [← total_perm sz hp]
  clear hp
  induction hs with
  | slnil => simp
  | cons a _ ih => simp only [total_cons]; omega
  | cons_cons a _ ih => simp only [total_cons]; omega

section
variable {ar : Arith} (hA : ar.Law)
include hA

theorem warray_fits [LinearOrder K] (sz : K × V → Nat) (srt srtS : Sorter (K × V)) :
    Fits (arrayBlock sz srt srtS) (warray ar sz srt srtS) (Array.Inv sz) Array.values (fun l => total sz l < word)
      (fun _ => True) True where
  mono l l' h := fun g => Nat.lt_of_le_of_lt (total_subperm sz h) g
  capacity _ _ _ := rfl
  size _ _ _ := rfl
  contains _ _ _ _ := rfl
  take s k h hc := Array.takeW_eq hA sz s k h hc
  takeMultiple s ks h hc _ := Array.takeMultipleLoopW_eq hA sz _ s _ _ h hc
  pop _ s n h hc _ := Array.popW_eq hA sz srt s n h hc
  push s l h hc _ g := Array.pushW_eq hA sz srt srtS s l h hc (by rw [total_append] at g; omega)
  flush _ _ _ _ := rfl

theorem wbtree_fits [LinearOrder K] [LinearOrder V] (sz : K × V → Nat) :
    Fits (btreeBlock sz) (wbtree ar sz) (BTree.Inv sz) BTree.map (fun l => total sz l < word)
      (fun l : List (K × V) => (l.map Prod.fst).Nodup) True where
  mono l l' h := fun g => Nat.lt_of_le_of_lt (total_subperm sz h) g
  capacity _ _ _ := rfl
  size _ _ _ := rfl
  contains _ _ _ _ := rfl
  take s k h hc := BTree.takeW_eq hA sz s k h.1 (Nat.lt_of_le_of_lt h.2 hc)
  takeMultiple s ks h hc _ := by
    change (do let (out, t) ← defaultTakeMultiple (BTree.takeW ar sz) s ks; return (out, ks, t)) = _
    rw [BTree.takeManyW_eq hA sz ks s h.1 (Nat.lt_of_le_of_lt h.2 hc)]
    rfl
  pop _ s n h hc _ := BTree.popW_eq hA sz s n h.1 (Nat.lt_of_le_of_lt h.2 hc)
  push s l h hc hl g := BTree.pushW_eq hA sz s l h hl hc (by rw [total_append] at g; omega)
  flush _ _ _ _ := rfl


theorem wexclusive_fits [LinearOrder K] {F B : Block K V} {If Ib ef eb SF SB pF pB}
    {wF : WBlock K V F.State} {wB : WBlock K V B.State}
    (cF : Core F If ef (fun _ => True)) (cB : Core B Ib eb (fun _ => True))
    (lB : pB → Lawful B Ib eb (fun _ => True))
    (hF : Fits F wF If ef SF (fun _ => True) pF) (hB : Fits B wB Ib eb SB (fun _ => True) pB) :
    Fits (exclusive F B) (wexclusive ar wF wB) (fun s => If s.1 ∧ Ib s.2) (exclusiveElems ef eb)
      (fun l => SF l ∧ SB l) (fun _ => True) (pF ∧ pB) := by
  have cap : ∀ {s : F.State × B.State}, (exclusive F B).capacity s < word →
      F.capacity s.1 < word ∧ B.capacity s.2 < word ∧ F.capacity s.1 + B.capacity s.2 < word := by
    intro s (h : F.capacity s.1 + B.capacity s.2 < word)
    exact ⟨by omega, by omega, h⟩
  constructor
  case mono => intro l l' h g; exact ⟨hF.mono l l' h g.1, hB.mono l l' h g.2⟩
  case capacity =>
    intro s h hc
    obtain ⟨c1, c2, c3⟩ := cap hc
    simp only [wexclusive, hF.capacity _ h.1 c1, hB.capacity _ h.2 c2, Res.ok_bind, hA.add _ _ c3]
    rfl
  case size =>
    intro s h hc
    obtain ⟨c1, c2, c3⟩ := cap hc
    have g1 := cF.bounded _ h.1
    have g2 := cB.bounded _ h.2
    simp only [wexclusive, hF.size _ h.1 c1, hB.size _ h.2 c2, Res.ok_bind]
    exact hA.add _ _ (by omega)
  case contains =>
    intro s k h hc
    obtain ⟨c1, c2, c3⟩ := cap hc
    simp only [wexclusive, exclusive, hF.contains _ k h.1 c1, hB.contains _ k h.2 c2]
  case take =>
    intro s k h hc
    obtain ⟨c1, c2, c3⟩ := cap hc
    simp only [wexclusive, exclusive, hF.take _ k h.1 c1, hB.take _ k h.2 c2]
    rfl
  case takeMultiple =>
    intro s ks h hc hk
    obtain ⟨c1, c2, c3⟩ := cap hc
    have e1 := (sortKeys_perm ks).length_eq
    obtain ⟨o1, k1, f, h1, -, -, -, -, -, h5, -⟩ := cF.takeMultiple _ (sortKeys ks) h.1
    have e2 := h5.length_le
    have e3 := (foldl_removeFound_subperm (o1.map Prod.fst) k1).length_le
    simp only [wexclusive, exclusive, hF.takeMultiple _ (sortKeys ks) h.1 c1 (by omega), h1, Res.ok_bind]
    rw [hB.takeMultiple _ _ h.2 c2 (by omega)]
  case pop =>
    intro hp s n h hc hn
    obtain ⟨c1, c2, c3⟩ := cap hc
    obtain ⟨o1, b, h1, h2, h3, h4, h5⟩ := (lB hp.2).pop _ n h.2
    have hle : B.size b ≤ B.size s.2 := by
      rcases h5 with h5 | h5
      · omega
      · rw [cB.empty_size b h2 h5]; omega
    have g2 := cB.bounded _ h.2
    simp only [wexclusive, exclusive, hB.size _ h.2 c2, Res.ok_bind, hB.pop hp.2 _ n h.2 c2 hn, h1,
      hB.size b h2 (by omega), hA.sub _ _ hle (by omega), Res.sub_ok hle]
    split
    · rename_i g
      rw [hA.sub _ _ (by omega) hn, Res.ok_bind, hF.pop hp.1 _ _ h.1 c1 (by omega)]
    · rfl
  case push =>
    intro s l h hc _ hs
    obtain ⟨c1, c2, c3⟩ := cap hc
    obtain ⟨o1, f, h1, h2, h3, h4⟩ := cF.push s.1 l h.1 trivial
    have a1 : SF (ef s.1 ++ l) := hF.mono _ _ (by
      simp only [exclusiveElems]; exact subperm_of_count fun _ a => by
        simp only [List.count_append]; omega) hs.1
    have a2 : SB (eb s.2 ++ o1) := hB.mono _ _ (by
      simp only [exclusiveElems]; exact subperm_of_count fun _ a => by
        have := h4.count_eq a
        simp only [List.count_append] at this ⊢; omega) hs.2
    simp only [wexclusive, exclusive, hF.push _ l h.1 c1 trivial a1, h1, Res.ok_bind,
      hB.push _ _ h.2 c2 trivial a2]
  case flush =>
    intro s h hc hs
    obtain ⟨c1, c2, c3⟩ := cap hc
    simp only [exclusiveElems] at hs
    have a1 : SF (ef s.1) := hF.mono _ _ (List.sublist_append_left _ _).subperm hs.1
    have a2 : SB (eb s.2) := hB.mono _ _ (List.sublist_append_right _ _).subperm hs.2
    obtain ⟨o1, b, h1, h2, h3, h4⟩ := cB.flush s.2 h.2
    obtain ⟨o2, f, g1, g2, g3, g4⟩ := cF.flush s.1 h.1
    obtain ⟨o3, b2, i1, i2, i3, i4⟩ := cB.push b o2 h2 trivial
    have a3 : SB (eb b ++ o2) := hB.mono _ _ (subperm_of_count fun _ a => by
        have q1 := h4.count_eq a
        have q2 := g4.count_eq a
        simp only [List.count_append] at q1 q2 ⊢; omega) hs.2
    have a4 : SB (eb b2) := hB.mono _ _ (subperm_of_count fun _ a => by
        have q1 := i4.count_eq a
        simp only [List.count_append] at q1 ⊢; omega) a3
    simp only [wexclusive, exclusive, hB.flush _ h.2 c2 a2, h1, Res.ok_bind, hF.flush _ h.1 c1 a1, g1,
      hB.push b o2 h2 (by omega) trivial a3, i1, hB.flush b2 i2 (by omega) a4]

omit hA in
theorem wflushStopper_fits {C : Block K V} {I ec S p} {w : WBlock K V C.State}
    (h : Fits C w I ec S (fun _ => True) p) :
    Fits (flushStopper C) (wflushStopper w) I ec S (fun _ => True) p where
  mono := h.mono
  capacity := h.capacity
  size := h.size
  contains := h.contains
  take := h.take
  takeMultiple := h.takeMultiple
  pop := h.pop
  push := h.push
  flush _ _ _ _ := rfl

theorem wprofiler_fits {C : Block K V} {I ec S p} {w : WBlock K V C.State}
    (c : Core C I ec (fun _ => True)) (f : Fair C I) (l : p → Lawful C I ec (fun _ => True))
    (h : Fits C w I ec S (fun _ => True) p) :
    Fits (profiler C) (wprofiler ar w) (fun s => I s.1) (fun s => ec s.1) S (fun _ => True) p := by
  constructor
  case mono => exact h.mono
  case capacity => intro s hs hc; exact h.capacity _ hs hc
  case size => intro s hs hc; exact h.size _ hs hc
  case contains => intro s k hs hc; simp only [wprofiler, profiler, h.contains _ k hs hc]
  case take =>
    intro s k hs (hc : C.capacity s.1 < word)
    obtain ⟨o, s', h1, h2, h3, -⟩ := c.take _ k hs
    simp only [wprofiler, profiler, h.take _ k hs hc, h.size _ hs hc, Res.ok_bind, h1, h.size s' h2 (by omega)]
  case takeMultiple =>
    intro s ks hs (hc : C.capacity s.1 < word) hk
    obtain ⟨o, ks', s', h1, h2, h3, -⟩ := c.takeMultiple _ ks hs
    have hl : o.length ≤ ks.length := by simpa using (f _ _ _ _ _ hs h1).length_le
    simp only [wprofiler, profiler, h.takeMultiple _ ks hs hc hk, h.size _ hs hc, Res.ok_bind, h1,
      h.size s' h2 (by omega), hA.sub _ _ hl hk, Res.sub_ok hl]
  case pop =>
    intro hp s n hs (hc : C.capacity s.1 < word) hn
    obtain ⟨o, s', h1, h2, h3, h4, h5⟩ := (l hp).pop _ n hs
    have hle : C.size s' ≤ C.size s.1 := by
      rcases h5 with h5 | h5
      · omega
      · rw [c.empty_size s' h2 h5]; omega
    have := c.bounded _ hs
    simp only [wprofiler, profiler, h.pop hp _ n hs hc hn, h.size _ hs hc, Res.ok_bind, h1,
      h.size s' h2 (by omega), hA.sub _ _ hle (by omega), Res.sub_ok hle]
  case push => intro s l hs hc _ g; simp only [wprofiler, profiler, h.push _ l hs hc trivial g]
  case flush =>
    intro s hs (hc : C.capacity s.1 < word) g
    obtain ⟨o, s', h1, h2, h3, -⟩ := c.flush _ hs
    simp only [wprofiler, profiler, h.flush _ hs hc g, h.size _ hs hc, Res.ok_bind, h1, h.size s' h2 (by omega)]

omit hA in
theorem wdecorator_fits (D : Decoration V) {C : Block K D.Item} {I ec S p} {w : WBlock K D.Item C.State}
    (hD : ∀ f v, D.unwrap (D.wrap f v).1 = v) 
    (h : Fits C w I ec S (fun _ => True) p) :
    Fits (decorator D C) (wdecorator D w) (fun s => I s.1) (fun s => (ec s.1).map (strip D))
      (fun l => ∀ l', (l'.map (strip D)).Subperm l → S l') (fun _ => True) p := by
  constructor
  case mono => intro l l' hs g l'' hl; exact g l'' (hl.trans hs)
  case capacity => intro s hs hc; exact h.capacity _ hs hc
  case size => intro s hs hc; exact h.size _ hs hc
  case contains => intro s k hs hc; simp only [wdecorator, decorator, h.contains _ k hs hc]
  case take => intro s k hs hc; simp only [wdecorator, decorator, h.take _ k hs hc]
  case takeMultiple => intro s k hs hc hk; simp only [wdecorator, decorator, h.takeMultiple _ k hs hc hk]
  case pop => intro hp s n hs hc hn; simp only [wdecorator, decorator, h.pop hp _ n hs hc hn]
  case push =>
    intro s l hs hc _ g
    have : S (ec s.1 ++ (wrapAll D s.2 l).1) := g _ (by
      rw [List.map_append, wrapAll_strip D hD])
    simp only [wdecorator, decorator, h.push _ _ hs hc trivial this]
  case flush => intro s hs hc g; simp only [wdecorator, decorator, h.flush _ hs hc (g _ (List.Subperm.refl _))]

omit hA in
theorem wdyn_fits {ι : Type} {C : ι → Block K V} {I : ∀ i, (C i).State → Prop}
    {ec : ∀ i, (C i).State → List (K × V)} {S : ι → List (K × V) → Prop} {p : ι → Prop}
    {w : ∀ i, WBlock K V (C i).State} (c : ∀ i, Core (C i) (I i) (ec i) (fun _ => True))
    (h : ∀ i, Fits (C i) (w i) (I i) (ec i) (S i) (fun _ => True) (p i)) :
    Fits (viaDefault (anyOf C)) (wdyn w) (fun s => I s.1 s.2) (fun s => ec s.1 s.2) (fun l => ∀ i, S i l)
      (fun _ => True) (∀ i, p i) := by
  constructor
  case mono => intro l l' hs g i; exact (h i).mono l l' hs (g i)
  case capacity => intro s hs hc; exact (h s.1).capacity _ hs hc
  case size => intro s hs hc; exact (h s.1).size _ hs hc
  case contains => intro s k hs hc; simp only [wdyn, viaDefault, anyOf, (h s.1).contains _ k hs hc]
  case take => intro s k hs hc; simp only [wdyn, viaDefault, anyOf, (h s.1).take _ k hs hc]
  case takeMultiple =>
    intro s ks hs hc hk
    clear hk
    simp only [wdyn, viaDefault]
    congr 1
    induction ks generalizing s with
    | nil => rfl
    | cons k ks ih =>
      obtain ⟨o, s', h1, h2, h3, -⟩ := (c s.1).take s.2 k hs
      simp only [defaultTakeMultiple, (h s.1).take _ k hs hc, anyOf, h1, Res.ok_bind, Res.pure_eq]
      have := ih ⟨s.1, s'⟩ h2 (by change (C s.1).capacity s' < word; rw [h3]; exact hc)
      simp only [anyOf, Res.pure_eq] at this
      rw [this]
  case pop => intro hp s n hs hc hn; simp only [wdyn, viaDefault, anyOf, (h s.1).pop (hp _) _ n hs hc hn]
  case push => intro s l hs hc _ g; simp only [wdyn, viaDefault, anyOf, (h s.1).push _ l hs hc trivial (g _)]
  case flush => intro s hs hc g; simp only [wdyn, viaDefault, anyOf, (h s.1).flush _ hs hc (g _)]

/-! ## Batch -/

section
variable {C : Block K V} {I : C.State → Prop} {ec : C.State → List (K × V)} {S : List (K × V) → Prop} {p : Prop}
  {w : WBlock K V C.State} (c : Core C I ec (fun _ => True)) (h : Fits C w I ec S (fun _ => True) p)

omit hA in
theorem sum_mem_le {E : Type} {f : E → Nat} {l : List E} {x : E} (hx : x ∈ l) : f x ≤ (l.map f).sum := by
  obtain ⟨a, b, rfl⟩ := List.append_of_mem hx
  simp only [List.map_append, List.sum_append, List.map_cons, List.sum_cons]
  omega

omit hA in
theorem mem_subperm_batch {E : Type} {f : E → List (K × V)} {l : List E} {x : E} (hx : x ∈ l) :
    (f x).Subperm (batchElems f l) := by
  obtain ⟨a, b, rfl⟩ := List.append_of_mem hx
  simp only [batchElems_append, batchElems_cons]
  exact subperm_of_count fun _ a => by simp only [List.count_append]; omega

omit hA in
include h in
theorem Batch.containsW_eq (k : K) : ∀ s : List C.State, (∀ x ∈ s, I x ∧ C.capacity x < word) →
    Batch.containsW w s k = Batch.contains C s k
  | [], _ => rfl
  | x :: s, hs => by
    simp only [Batch.containsW, Batch.contains, h.contains x k (hs x (by simp)).1 (hs x (by simp)).2,
      Batch.containsW_eq k s fun y hy => hs y (by simp [hy])]

omit hA in
include h in
theorem Batch.takeW_eq (k : K) : ∀ s : List C.State, (∀ x ∈ s, I x ∧ C.capacity x < word) →
    Batch.takeW w s k = Batch.take C s k
  | [], _ => rfl
  | x :: s, hs => by
    simp only [Batch.takeW, Batch.take, h.take x k (hs x (by simp)).1 (hs x (by simp)).2,
      Batch.takeW_eq k s fun y hy => hs y (by simp [hy])]
    rfl

omit hA in
include h c in
theorem Batch.takeMultipleW_eq : ∀ (s : List C.State) (ks : List K), (∀ x ∈ s, I x ∧ C.capacity x < word) →
    ks.length < word → Batch.takeMultipleW w s ks = Batch.takeMultiple C s ks
  | [], _, _, _ => rfl
  | x :: s, [], _, _ => rfl
  | x :: s, k :: ks, hs, hk => by
    obtain ⟨h1, h2⟩ := hs x (by simp)
    obtain ⟨o, ks', x', g1, g2, g3, -, -, -, g5, -⟩ := c.takeMultiple x (k :: ks) h1
    have := g5.length_le
    simp only [Batch.takeMultipleW, Batch.takeMultiple, h.takeMultiple x _ h1 h2 hk, g1, Res.ok_bind,
      Batch.takeMultipleW_eq s ks' (fun y hy => hs y (by simp [hy])) (by omega)]

include h c in
theorem Batch.popLoopW_eq (hp : p) (l : Lawful C I ec (fun _ => True)) : ∀ (s : List C.State) (n : Nat),
    (∀ x ∈ s, I x ∧ C.capacity x < word) → n < word → Batch.popLoopW ar w s n = Batch.popLoop C s n
  | [], _, _, _ => rfl
  | x :: s, n, hs, hn => by
    obtain ⟨h1, h2⟩ := hs x (by simp)
    obtain ⟨o, x', g1, g2, g3, g4, g5⟩ := l.pop x n h1
    have hle : C.size x' ≤ C.size x := by
      rcases g5 with g5 | g5
      · omega
      · rw [c.empty_size x' g2 g5]; omega
    have := c.bounded _ h1
    simp only [Batch.popLoopW, Batch.popLoop, h.size x h1 h2, h.pop hp x n h1 h2 hn, g1, Res.ok_bind,
      h.size x' g2 (by omega), hA.sub _ _ hle (by omega), Res.sub_ok hle]
    split
    · rfl
    · rw [hA.sub _ _ (by omega) hn, Res.ok_bind,
        Batch.popLoopW_eq hp l s _ (fun y hy => hs y (by simp [hy])) (by omega)]

omit hA in
include h c in
theorem Batch.pushLoopW_eq : ∀ (s : List C.State) (l : List (K × V)), (∀ x ∈ s, I x ∧ C.capacity x < word) →
    S (batchElems ec s ++ l) → Batch.pushLoopW w s l = Batch.pushLoop C s l
  | [], [], _, _ => rfl
  | [], _ :: _, _, _ => rfl
  | x :: s, [], _, _ => rfl
  | x :: s, v :: l, hs, hS => by
    obtain ⟨h1, h2⟩ := hs x (by simp)
    obtain ⟨o, x', g1, g2, g3, g4⟩ := c.push x (v :: l) h1 trivial
    simp only [batchElems_cons] at hS
    have a1 : S (ec x ++ v :: l) := h.mono _ _ (subperm_of_count fun _ a => by
      simp only [List.count_append]; omega) hS
    have a2 : S (batchElems ec s ++ o) := h.mono _ _ (subperm_of_count fun _ a => by
      have := g4.count_eq a
      simp only [List.count_append] at this ⊢; omega) hS
    simp only [Batch.pushLoopW, Batch.pushLoop, h.push x _ h1 h2 trivial a1, g1, Res.ok_bind,
      Batch.pushLoopW_eq s o (fun y hy => hs y (by simp [hy])) a2]

omit hA in
include h in
theorem Batch.flushW_eq : ∀ (s : List C.State), (∀ x ∈ s, I x ∧ C.capacity x < word) →
    S (batchElems ec s) → Batch.flushW w s = Batch.flush C s
  | [], _, _ => rfl
  | x :: s, hs, hS => by
    obtain ⟨h1, h2⟩ := hs x (by simp)
    simp only [batchElems_cons] at hS
    have a1 : S (ec x) := h.mono _ _ (List.sublist_append_left _ _).subperm hS
    have a2 : S (batchElems ec s) := h.mono _ _ (List.sublist_append_right _ _).subperm hS
    simp only [Batch.flushW, Batch.flush, h.flush x h1 h2 a1,
      Batch.flushW_eq s (fun y hy => hs y (by simp [hy])) a2]

include h c in
theorem wbatch_fits (l : p → Lawful C I ec (fun _ => True)) :
    Fits (batch C) (wbatch ar w) (batchInv I) (batchElems ec) S (fun _ => True) p := by
  have cap : ∀ {s : List C.State}, batchInv I s → (batch C).capacity s < word →
      (∀ x ∈ s, I x ∧ C.capacity x < word) ∧ (s.map C.capacity).sum < word := by
    intro s hs (hc : (s.map C.capacity).sum < word)
    exact ⟨fun x hx => ⟨hs x hx, Nat.lt_of_le_of_lt (sum_mem_le hx) hc⟩, hc⟩
  constructor
  case mono => exact h.mono
  case capacity =>
    intro (s : List C.State) hs hc
    obtain ⟨h1, h2⟩ := cap hs hc
    have := sumResW_eq hA w.capacity C.capacity s 0 (fun x hx => h.capacity x (h1 x hx).1 (h1 x hx).2) (by omega)
    rw [Nat.zero_add] at this
    exact this
  case size =>
    intro (s : List C.State) hs hc
    obtain ⟨h1, h2⟩ := cap hs hc
    have hb : (s.map C.size).sum ≤ (s.map C.capacity).sum := (batch_core c).bounded s hs
    have := sumResW_eq hA w.size C.size s 0 (fun x hx => h.size x (h1 x hx).1 (h1 x hx).2) (by omega)
    rw [Nat.zero_add] at this
    exact this
  case contains => intro s k hs hc; exact Batch.containsW_eq h k s (cap hs hc).1
  case take => intro s k hs hc; exact Batch.takeW_eq h k s (cap hs hc).1
  case takeMultiple => intro s k hs hc hk; exact Batch.takeMultipleW_eq c h s k (cap hs hc).1 hk
  case pop =>
    intro hp (s : List C.State) n hs hc hn
    change Batch.popW ar w s n = Batch.pop C s n
    rw [Batch.popW, Batch.pop, Batch.popLoopW_eq hA c h hp (l hp) _ n
      (fun x hx => (cap hs hc).1 x (by simpa using hx)) hn]
  case push =>
    intro (s : List C.State) l hs hc _ g
    change Batch.pushW w s l = Batch.push C s l
    rw [Batch.pushW, Batch.push, Batch.pushLoopW_eq c h s l (cap hs hc).1 g]
  case flush => intro s hs hc g; exact Batch.flushW_eq h s (cap hs hc).1 g

/-! ## Associative -/

omit hA in
include h in
theorem Associative.takeMultipleLoopW_eq : ∀ (s : List C.State) (gs : List (List K)),
    (∀ x ∈ s, I x ∧ C.capacity x < word) → (∀ g ∈ gs, g.length < word) →
    Associative.takeMultipleLoopW w s gs = Associative.takeMultipleLoop C s gs
  | [], _, _, _ => by simp [Associative.takeMultipleLoopW, Associative.takeMultipleLoop]
  | x :: s, [], _, _ => rfl
  | x :: s, g :: gs, hs, hk => by
    obtain ⟨h1, h2⟩ := hs x (by simp)
    have ih := Associative.takeMultipleLoopW_eq s gs (fun y hy => hs y (by simp [hy])) (fun y hy => hk y (by simp [hy]))
    simp only [Associative.takeMultipleLoopW, Associative.takeMultipleLoop, ih,
      h.takeMultiple x g h1 h2 (hk g (by simp))]

omit hA in
include h in
theorem Associative.pushLoopW_eq : ∀ (s : List C.State) (gs : List (List (K × V))),
    (∀ x ∈ s, I x ∧ C.capacity x < word) → S (batchElems ec s ++ gs.flatten) →
    Associative.pushLoopW w s gs = Associative.pushLoop C s gs
  | [], _, _, _ => by simp [Associative.pushLoopW, Associative.pushLoop]
  | x :: s, [], _, _ => rfl
  | x :: s, g :: gs, hs, hS => by
    obtain ⟨h1, h2⟩ := hs x (by simp)
    simp only [batchElems_cons, List.flatten_cons] at hS
    have a1 : S (ec x ++ g) := h.mono _ _ (subperm_of_count fun _ a => by
      simp only [List.count_append]; omega) hS
    have a2 : S (batchElems ec s ++ gs.flatten) := h.mono _ _ (subperm_of_count fun _ a => by
      simp only [List.count_append]; omega) hS
    simp only [Associative.pushLoopW, Associative.pushLoop, h.push x g h1 h2 trivial a1,
      Associative.pushLoopW_eq s gs (fun y hy => hs y (by simp [hy])) a2]

omit hA in
include h in
theorem Associative.sizesW_eq : ∀ (s : List C.State), (∀ x ∈ s, I x ∧ C.capacity x < word) →
    Associative.sizesW w s = .ok (s.map C.size)
  | [], _ => rfl
  | x :: s, hs => by
    simp only [Associative.sizesW, h.size x (hs x (by simp)).1 (hs x (by simp)).2, Res.ok_bind,
      Associative.sizesW_eq s fun y hy => hs y (by simp [hy]), List.map_cons, Res.pure_eq]

theorem Associative.targetLoopW_eq (size : Nat) : ∀ (bs : List (Nat × Nat)) (popped : Nat), size < popped →
    popped < word → Associative.targetLoopW ar size bs popped = Associative.targetLoop size bs popped
  | [], popped, h1, h2 => by
    simp only [Associative.targetLoopW, Associative.targetLoop, hA.sub _ _ h1.le h2, Res.sub_ok h1.le]
  | (b, i) :: bs, popped, h1, h2 => by
    have hd : (popped - size) / (bs.length + 1 + 1) ≤ popped - size := Nat.div_le_self _ _
    simp only [Associative.targetLoopW, Associative.targetLoop, hA.sub _ _ h1.le h2, Res.sub_ok h1.le, Res.ok_bind]
    split
    · rfl
    · rename_i g
      have hb : b ≤ popped := by omega
      simp only [hA.sub _ _ hb h2, Res.sub_ok hb, Res.ok_bind]
      split
      · rename_i g
        exact Associative.targetLoopW_eq size bs _ g (by omega)
      · rfl

omit hA in
theorem Associative.targetLoop_ge (size : Nat) : ∀ (bs : List (Nat × Nat)) (popped target : Nat) (bs' : List (Nat × Nat)),
    bs.Pairwise (fun a b => a.1 ≤ b.1) → Associative.targetLoop size bs popped = .ok (target, bs') →
    (∀ b ∈ bs', target ≤ b.1) ∧ ∀ b ∈ bs', b ∈ bs
  | [], popped, target, bs', _, he => by
    simp only [Associative.targetLoop] at he
    cases hs : Res.sub popped size <;> rw [hs] at he <;> simp at he
  | (b, i) :: bs, popped, target, bs', hp, he => by
    simp only [Associative.targetLoop] at he
    cases hs : Res.sub popped size with
    | panic => rw [hs] at he; simp at he
    | ok d =>
      rw [hs, Res.ok_bind] at he
      split at he
      · rename_i g
        simp only [Res.pure_eq, Res.ok.injEq, Prod.mk.injEq] at he
        obtain ⟨rfl, rfl⟩ := he
        refine ⟨?_, fun x hx => hx⟩
        intro x hx
        rcases List.mem_cons.1 hx with rfl | hx
        · exact g
        · exact le_trans g ((List.pairwise_cons.1 hp).1 x hx)
      · cases hs2 : Res.sub popped b with
        | panic => rw [hs2] at he; simp at he
        | ok q =>
          rw [hs2, Res.ok_bind] at he
          split at he
          · obtain ⟨h1, h2⟩ := Associative.targetLoop_ge size bs q target bs' (List.pairwise_cons.1 hp).2 he
            exact ⟨h1, fun x hx => List.mem_cons_of_mem _ (h2 x hx)⟩
          · simp at he

include h in
theorem Associative.popLoopW_eq (hp : p) (pk : ∀ s n out s', I s → C.pop s n = .ok (out, s') → I s' ∧ C.capacity s' = C.capacity s)
    (target : Nat) : ∀ (bs : List (Nat × Nat)) (s : List C.State),
    (∀ b ∈ bs, target ≤ b.1 ∧ b.1 < word) → (∀ x ∈ s, I x ∧ C.capacity x < word) →
    Associative.popLoopW ar w target bs s = Associative.popLoop C target bs s
  | [], _, _, _ => rfl
  | (b, i) :: bs, s, hb, hs => by
    obtain ⟨b1, b2⟩ := hb (b, i) (by simp)
    simp only [Associative.popLoopW, Associative.popLoop]
    cases hg : s[i]? with
    | none => rfl
    | some x =>
      obtain ⟨x1, x2⟩ := hs x (List.mem_of_getElem? hg)
      simp only [Res.unwrap_some, Res.ok_bind, hA.sub _ _ b1 b2, Res.sub_ok b1,
        h.pop hp x (b - target) x1 x2 (by simp only at b2; omega)]
      cases hc : C.pop x (b - target) with
      | panic => rfl
      | ok r =>
        obtain ⟨o, x'⟩ := r
        obtain ⟨k1, k2⟩ := pk _ _ _ _ x1 hc
        simp only [Res.ok_bind]
        rw [Associative.popLoopW_eq hp pk target bs (s.set i x') (fun y hy => hb y (by simp [hy])) (by
          intro y hy
          rcases List.mem_or_eq_of_mem_set hy with hy | rfl
          · exact hs y hy
          · exact ⟨k1, by omega⟩)]

include h c in
theorem Associative.popW_eq (hp : p) (pk : ∀ s n out s', I s → C.pop s n = .ok (out, s') → I s' ∧ C.capacity s' = C.capacity s)
    (s : List C.State) (hs : ∀ x ∈ s, I x) (hcap : (s.map C.capacity).sum < word)
    (hl : s.length < word) (hS : S (batchElems ec s)) (n : Nat) :
    Associative.popW ar w s n = Associative.pop C s n := by
  have hx : ∀ x ∈ s, I x ∧ C.capacity x < word := fun x hx => ⟨hs x hx, Nat.lt_of_le_of_lt (sum_mem_le hx) hcap⟩
  have hb : (s.map C.size).sum ≤ (s.map C.capacity).sum := (batch_core c).bounded s hs
  have ht : (s.map C.size).sum = total id (s.map C.size) := by simp [total]
  unfold Associative.popW Associative.pop
  rw [Associative.sizesW_eq h s hx, Res.ok_bind, sumW_eq hA id _ 0 (by omega), Res.ok_bind, Nat.zero_add, ← ht]
  dsimp only
  split
  · rfl
  split
  · exact Batch.flushW_eq h s hx hS
  · rename_i g
    rw [Associative.targetLoopW_eq hA n _ _ (by omega) (by omega)]
    cases he : Associative.targetLoop n ((List.range s.length).zip (s.map C.size)) (s.map C.size).sum with
    | panic => rfl
    | ok r =>
      obtain ⟨t, bs⟩ := r
      have hsorted : ((List.range s.length).zip (s.map C.size)).Pairwise (fun a b => a.1 ≤ b.1) := by
        have h1 : (((List.range s.length).zip (s.map C.size)).map Prod.fst).Pairwise (· ≤ ·) := by
          rw [List.map_fst_zip (by simp)]
          exact List.pairwise_le_range
        exact List.pairwise_map.1 h1
      obtain ⟨g1, g2⟩ := Associative.targetLoop_ge n _ _ _ _ hsorted he
      simp only [Res.ok_bind]
      refine Associative.popLoopW_eq hA h hp pk t bs s (fun b hb => ⟨g1 b hb, ?_⟩) hx
      have := (List.of_mem_zip (a := b.1) (b := b.2) (g2 b hb)).1
      have := List.mem_range.1 this
      omega

include h c in
theorem wassociative_fits (hash : K → Nat) :
    Fits (associative hash C) (wassociative ar hash w) (Associative.Inv hash I ec) (batchElems ec) S
      (fun _ => True) False := by
  have cap : ∀ {s : List C.State}, Associative.Inv hash I ec s → (associative hash C).capacity s < word →
      (∀ x ∈ s, I x ∧ C.capacity x < word) ∧ (s.map C.capacity).sum < word := by
    intro s hs (hc : (s.map C.capacity).sum < word)
    exact ⟨fun x hx => ⟨hs.2.inv x hx, Nat.lt_of_le_of_lt (sum_mem_le hx) hc⟩, hc⟩
  constructor
  case mono => exact h.mono
  case capacity =>
    intro (s : List C.State) hs hc
    obtain ⟨h1, h2⟩ := cap hs hc
    have := sumResW_eq hA w.capacity C.capacity s 0 (fun x hx => h.capacity x (h1 x hx).1 (h1 x hx).2) (by omega)
    rw [Nat.zero_add] at this
    exact this
  case size =>
    intro (s : List C.State) hs hc
    obtain ⟨h1, h2⟩ := cap hs hc
    have hb : (s.map C.size).sum ≤ (s.map C.capacity).sum :=
      (associative_core (Pre := fun _ => True) (hash := hash) c (fun _ _ _ => trivial)).bounded s hs
    have := sumResW_eq hA w.size C.size s 0 (fun x hx => h.size x (h1 x hx).1 (h1 x hx).2) (by omega)
    rw [Nat.zero_add] at this
    exact this
  case contains =>
    intro (s : List C.State) k hs hc
    obtain ⟨x, g1, g2, g3⟩ := Associative.getSet hs k
    have hm := List.mem_of_getElem? g1
    simp only [wassociative, associative, g3, Res.ok_bind, g1, Res.unwrap_some, h.contains x k g2 ((cap hs hc).1 x hm).2]
  case take =>
    intro (s : List C.State) k hs hc
    obtain ⟨x, g1, g2, g3⟩ := Associative.getSet hs k
    have hm := List.mem_of_getElem? g1
    simp only [wassociative, associative, g3, Res.ok_bind, g1, Res.unwrap_some, h.take x k g2 ((cap hs hc).1 x hm).2]
  case takeMultiple =>
    intro (s : List C.State) ks hs hc hk
    obtain ⟨G, g1, g2, g3, -⟩ := Associative.distribute_replicate hash id s.length hs.1 ks
    change (do
      let g ← Associative.distribute hash id s.length ks (List.replicate s.length [])
      Associative.takeMultipleLoopW w s g) = Associative.takeMultiple hash C s ks
    rw [Associative.takeMultiple, g1, Res.ok_bind, Res.ok_bind]
    refine Associative.takeMultipleLoopW_eq h s G (cap hs hc).1 fun g hg => ?_
    have : g.length ≤ G.flatten.length := (List.sublist_flatten_of_mem hg).length_le
    rw [g3.length_eq] at this
    omega
  case pop => exact fun x => x.elim
  case push =>
    intro (s : List C.State) l hs hc _ hS
    obtain ⟨G, g1, g2, g3, -⟩ := Associative.distribute_replicate hash Prod.fst s.length hs.1 l
    change (do
      let g ← Associative.distribute hash Prod.fst s.length l (List.replicate s.length [])
      Associative.pushLoopW w s g) = Associative.push hash C s l
    rw [Associative.push, g1, Res.ok_bind, Res.ok_bind]
    exact Associative.pushLoopW_eq h s G (cap hs hc).1 (h.mono _ _ (g3.append_left _).subperm hS)
  case flush => intro s hs hc g; exact Batch.flushW_eq h s (cap hs hc).1 g

end
end

/-! ## Stacks -/

namespace Stack

variable [LinearOrder K]

/-- The sizes of the elements of `l`, as measured by any Array of the container, add up to a machine word. -/
def Small : {V : Type} → Stack K V → List (K × V) → Prop
  | _, array sz _ _, l => total sz l < word
  | _, exclusive f b, l => f.Small l ∧ b.Small l
  | _, batch c, l => c.Small l
  | _, associative _ c, l => c.Small l
  | _, flushStopper c, l => c.Small l
  | _, sequential c, l => c.Small l
  | _, dyn _ c, l => ∀ i, (c i).Small l
  | _, decorator D _ c, l => ∀ l', (l'.map (strip D)).Subperm l → c.Small l'
  | _, profiler c, l => c.Small l

omit [LinearOrder K] in
theorem _root_.Byoc.Fits.weaken {B : Block K V} {W : WBlock K V B.State} {I I' e S P p}
    (h : Fits B W I e S P p) (hi : ∀ s, I' s → I s) : Fits B W I' e S P p where
  mono := h.mono
  capacity s hs := h.capacity s (hi s hs)
  size s hs := h.size s (hi s hs)
  contains s k hs := h.contains s k (hi s hs)
  take s k hs := h.take s k (hi s hs)
  takeMultiple s k hs := h.takeMultiple s k (hi s hs)
  pop hp s k hs := h.pop hp s k (hi s hs)
  push s k hs := h.push s k (hi s hs)
  flush s hs := h.flush s (hi s hs)

theorem fits {ar : Arith} (hA : ar.Law) {V : Type} (t : Stack K V) : t.WF →
    Fits t.block (t.wblock ar) (t.Inv False) t.elems t.Small (fun _ => True) t.NoAssociative := by
  induction t with
  | array sz srt srtS => intro _; exact warray_fits hA sz srt srtS
  | exclusive f b ihf ihb =>
    intro h
    exact (wexclusive_fits hA (f.core False h.1) (b.core False h.2) (b.lawful False h.2)
      (ihf h.1) (ihb h.2)).weaken fun s hs => ⟨hs.1.1, hs.2⟩
  | batch c ih => intro h; exact wbatch_fits hA (c.core False h) (ih h) (c.lawful False h)
  | associative hash c ih => intro h; exact wassociative_fits hA (c.core False h) (ih h) hash
  | flushStopper c ih => intro h; exact wflushStopper_fits (ih h)
  | sequential c ih => exact ih
  | dyn ι c ih => intro h; exact wdyn_fits (fun i => (c i).core False (h i)) fun i => ih i (h i)
  | decorator D A c ih => intro h; exact wdecorator_fits D h.1 (ih h.2)
  | profiler c ih =>
    intro h
    exact wprofiler_fits hA (c.core False h.2) ((c.core_all False h.2).2.1 h.1) (c.lawful False h.2) (ih h.2)

end Stack

/-! ## Histories -/

/-- The arguments of a call are `usize`s, and vectors have less than `2 ^ 64` elements. -/
def Op.Machine : Op K V → Prop
  | .takeMultiple ks => ks.length < word
  | .pop n => n < word
  | _ => True

theorem Fits.step {B : Block K V} {W : WBlock K V B.State} {I e S P p} (h : Fits B W I e S P p)
    (s : B.State) (hs : I s) (hc : B.capacity s < word) (op : Op K V) (hm : op.Machine) (hP : op.Ok P)
    (hp : p ∨ op.NotPop) (hS : S (e s ++ op.given)) : W.step s op = B.step s op := by
  cases op with
  | contains k => simp only [WBlock.step, Block.step, h.contains s k hs hc]
  | take k => simp only [WBlock.step, Block.step, h.take s k hs hc]
  | takeMultiple ks => simp only [WBlock.step, Block.step, h.takeMultiple s ks hs hc hm]
  | pop n =>
    rcases hp with hp | hp
    · exact h.pop hp s n hs hc hm
    · exact hp.elim
  | push l => exact h.push s l hs hc hP hS
  | flush => exact h.flush s hs hc (by simpa [Op.given] using hS)

end Byoc
