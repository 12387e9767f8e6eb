import Verif.Proofs.Associative
import Verif.Proofs.Array
import Verif.Proofs.Batch

/-!
# `Fair`, `KeepsSorted` and `Strict` of the building blocks

How many elements `take_multiple` may return, which is what `Profiler` relies on
(src/profiler/building_block.rs 133: `n - hits`).
-/

namespace Byoc

variable {K V : Type}

theorem removeFound_count [LinearOrder K] {ks : List K} (hs : ks.Pairwise (· ≤ ·)) (k a : K) :
    (removeFound ks k).count a = ks.count a - [k].count a := by
  unfold removeFound
  split
  · rename_i j hj
    have := (eraseIdx_perm (bsearch_sound hj)).count_eq a
    simp only [List.count_cons, List.count_nil] at this ⊢
    omega
  · rename_i hj
    have hn := bsearch_none hs hj
    by_cases h : k = a
    · subst h; simp [List.count_eq_zero_of_not_mem hn]
    · simp [h]

theorem foldl_removeFound_count [LinearOrder K] (l : List K) :
    ∀ {ks : List K}, ks.Pairwise (· ≤ ·) → ∀ a,
      (l.foldl removeFound ks).count a = ks.count a - l.count a := by
  induction l with
  | nil => intro ks _ a; simp
  | cons k l ih =>
    intro ks hs a
    rw [List.foldl_cons, ih (removeFound_sorted k hs), removeFound_count hs]
    simp only [List.count_cons, List.count_nil]
    omega

theorem foldl_removeFound_fair [LinearOrder K] {l ks ks' : List K} (hs : ks'.Pairwise (· ≤ ·))
    (h1 : l.Subperm ks) (h2 : ks'.Subperm ks) : (l ++ l.foldl removeFound ks').Subperm ks := by
  refine List.subperm_ext_iff.2 fun a _ => ?_
  have e1 := h1.count_le a
  have e2 := h2.count_le a
  rw [List.count_append, foldl_removeFound_count l hs]
  omega

/-! ## Array -/

theorem Array.keepsSorted [LinearOrder K] (sz : K × V → Nat) (srt srtS : Sorter (K × V)) :
    KeepsSorted (arrayBlock sz srt srtS) (Array.Inv sz) := by
  intro s ks out ks' s' h _ he
  obtain ⟨k2, a2, g1, -, -, g4, -⟩ :=
    Array.takeMultipleLoop_spec sz s.values.length s s.values [] (sortKeys ks) [] h (by simp) rfl
      (sortKeys_sorted ks)
  simp only [arrayBlock, Array.takeMultiple] at he
  rw [g1] at he
  cases he
  exact g4

/-! ## Exclusive -/

/-- Either the level consumes the keys it finds, or `Exclusive` can find them in the sorted list. -/
theorem removed_strict [LinearOrder K] {F : Block K V} {If : F.State → Prop} {ef Pre}
    (hF : Core F If ef Pre) (sF : Strict F If ∨ (Fair F If ∧ KeepsSorted F If))
    {s : F.State} {ks ks' : List K} {out : List (K × V)} {s' : F.State} (h : If s)
    (hs : Strict F If ∨ ks.Pairwise (· ≤ ·))
    (he : F.takeMultiple s ks = .ok (out, ks', s')) :
    (out.map Prod.fst ++ (out.map Prod.fst).foldl removeFound ks').Subperm ks := by
  obtain ⟨o1, k1, f, h1, -, -, -, -, -, hk1, -⟩ := hF.takeMultiple s ks h
  rw [he] at h1; cases h1
  have strict : Strict F If → (out.map Prod.fst ++ (out.map Prod.fst).foldl removeFound ks').Subperm ks := by
    intro sF
    have e1 := sF _ _ _ _ _ h he
    have e2 := foldl_removeFound_subperm (out.map Prod.fst) ks'
    subperms [e1, e2] []
  rcases sF with sF | ⟨sF, kF⟩
  · exact strict sF
  · rcases hs with hs | hs
    · exact strict hs
    · exact foldl_removeFound_fair (kF _ _ _ _ _ h hs he) (sF _ _ _ _ _ h he) hk1

/-- `Exclusive` removes the found keys itself: it is strict even when its levels use the default
`take_multiple`. -/
theorem exclusive_strict_of_fair [LinearOrder K] {F B : Block K V} {If Ib ef eb Pre Pre'}
    (hF : Core F If ef Pre) (hB : Core B Ib eb Pre')
    (sF : Strict F If ∨ (Fair F If ∧ KeepsSorted F If))
    (sB : Strict B Ib ∨ (Fair B Ib ∧ KeepsSorted B Ib ∧ KeepsSorted F If)) :
    Strict (exclusive F B) (fun s => If s.1 ∧ Ib s.2) := by
  intro s ks out ks' s' h he
  obtain ⟨o1, k1, f, h1, -, -, -, -, -, hk1, -⟩ := hF.takeMultiple s.1 (sortKeys ks) h.1
  have e1 := removed_strict hF sF h.1 (Or.inr (sortKeys_sorted ks)) h1
  obtain ⟨o2, k2, b, h2, -, -, -, -, -, hk2, -⟩ :=
    hB.takeMultiple s.2 ((o1.map Prod.fst).foldl removeFound k1) h.2
  have e2 := removed_strict hB (sB.imp_right fun x => ⟨x.1, x.2.1⟩) h.2
    (sB.imp_right fun x => foldl_removeFound_sorted _ (x.2.2 _ _ _ _ _ h.1 (sortKeys_sorted ks) h1)) h2
  simp only [exclusive, h1, h2, Res.ok_bind, Res.pure_eq, Res.ok.injEq, Prod.mk.injEq] at he
  obtain ⟨rfl, rfl, rfl⟩ := he
  rw [List.map_append]
  subperms [e1, e2] [sortKeys_perm ks]

theorem exclusive_fair [LinearOrder K] {F B : Block K V} {If Ib ef eb Pre Pre'}
    (hF : Core F If ef Pre) (hB : Core B Ib eb Pre')
    (sF : Strict F If ∨ (Fair F If ∧ KeepsSorted F If)) (sB : Fair B Ib) :
    Fair (exclusive F B) (fun s => If s.1 ∧ Ib s.2) := by
  intro s ks out ks' s' h he
  obtain ⟨o1, k1, f, h1, -, -, -, -, -, hk1, -⟩ := hF.takeMultiple s.1 (sortKeys ks) h.1
  have e1 := removed_strict hF sF h.1 (Or.inr (sortKeys_sorted ks)) h1
  obtain ⟨o2, k2, b, h2, -⟩ :=
    hB.takeMultiple s.2 ((o1.map Prod.fst).foldl removeFound k1) h.2
  have e2 := sB _ _ _ _ _ h.2 h2
  simp only [exclusive, h1, h2, Res.ok_bind, Res.pure_eq, Res.ok.injEq, Prod.mk.injEq] at he
  obtain ⟨rfl, rfl, rfl⟩ := he
  rw [List.map_append]
  subperms [e1, e2] [sortKeys_perm ks]

theorem exclusive_keepsSorted [LinearOrder K] {F B : Block K V} {If Ib ef eb Pre Pre'}
    (hF : Core F If ef Pre) (hB : Core B Ib eb Pre')
    (kF : KeepsSorted F If) (kB : KeepsSorted B Ib) :
    KeepsSorted (exclusive F B) (fun s => If s.1 ∧ Ib s.2) := by
  intro s ks out ks' s' h _ he
  obtain ⟨o1, k1, f, h1, -, -, -, -, -, hk1, -⟩ := hF.takeMultiple s.1 (sortKeys ks) h.1
  have hp1 := kF _ _ _ _ _ h.1 (sortKeys_sorted ks) h1
  obtain ⟨o2, k2, b, h2, -, -, -, -, -, hk2, -⟩ :=
    hB.takeMultiple s.2 ((o1.map Prod.fst).foldl removeFound k1) h.2
  have hp2 := kB _ _ _ _ _ h.2 (foldl_removeFound_sorted _ hp1) h2
  simp only [exclusive, h1, h2, Res.ok_bind, Res.pure_eq, Res.ok.injEq, Prod.mk.injEq] at he
  obtain ⟨rfl, rfl, rfl⟩ := he
  exact foldl_removeFound_sorted _ hp2

/-! ## Batch -/

theorem batch_keepsSorted [LinearOrder K] {C : Block K V} {I : C.State → Prop}
    (kC : KeepsSorted C I) : KeepsSorted (batch C) (batchInv I) := by
  intro (s : List C.State)
  induction s with
  | nil =>
    intro ks out ks' s' _ hs he
    simp only [batch, Batch.takeMultiple, Res.ok.injEq, Prod.mk.injEq] at he
    obtain ⟨rfl, rfl, rfl⟩ := he
    exact hs
  | cons c cs ih =>
    intro ks out ks' s' h hs he
    cases ks with
    | nil =>
      simp only [batch, Batch.takeMultiple, Res.ok.injEq, Prod.mk.injEq] at he
      obtain ⟨rfl, rfl, rfl⟩ := he
      simp
    | cons k0 ks0 =>
      simp only [batch, Batch.takeMultiple] at he
      cases h1 : C.takeMultiple c (k0 :: ks0) with
      | panic => simp [h1] at he
      | ok r =>
        obtain ⟨o1, k1, c'⟩ := r
        simp only [h1, Res.ok_bind] at he
        cases h2 : Batch.takeMultiple C cs k1 with
        | panic => simp [h2] at he
        | ok r =>
          obtain ⟨o2, k2, cs'⟩ := r
          simp only [h2, Res.ok_bind, Res.pure_eq, Res.ok.injEq, Prod.mk.injEq] at he
          obtain ⟨rfl, rfl, rfl⟩ := he
          exact ih _ _ _ _ (fun d hd => h d (by simp [hd]))
            (kC _ _ _ _ _ (h c (by simp)) hs h1) h2

/-! ## Associative -/

open Associative in
theorem associative_fair {hash : K → Nat} {C : Block K V} {I : C.State → Prop}
    {ec : C.State → List (K × V)} (sC : Fair C I) :
    Fair (associative hash C) (Inv hash I ec) := by
  have loop : ∀ (s : List C.State) (gs : List (List K)) out ks' s', (∀ c ∈ s, I c) →
      takeMultipleLoop C s gs = .ok (out, ks', s') →
      (out.map Prod.fst).Subperm gs.flatten := by
    intro s
    induction s with
    | nil =>
      intro gs out ks' s' _ he
      simp only [takeMultipleLoop, Res.ok.injEq, Prod.mk.injEq] at he
      obtain ⟨rfl, rfl, rfl⟩ := he
      simp
    | cons c cs ih =>
      intro gs out ks' s' h he
      cases gs with
      | nil =>
        simp only [takeMultipleLoop, Res.ok.injEq, Prod.mk.injEq] at he
        obtain ⟨rfl, rfl, rfl⟩ := he
        simp
      | cons g gs =>
        simp only [takeMultipleLoop] at he
        by_cases hg : g = []
        · rw [if_pos hg] at he
          cases h2 : takeMultipleLoop C cs gs with
          | panic => simp [h2] at he
          | ok r =>
            obtain ⟨o2, k2, cs'⟩ := r
            simp only [h2, Res.ok_bind, Res.pure_eq, Res.ok.injEq, Prod.mk.injEq] at he
            obtain ⟨rfl, rfl, rfl⟩ := he
            have := ih _ _ _ _ (fun d hd => h d (by simp [hd])) h2
            simpa [hg] using this
        · rw [if_neg hg] at he
          cases h1 : C.takeMultiple c g with
          | panic => simp [h1] at he
          | ok r =>
            obtain ⟨o1, k1, c'⟩ := r
            simp only [h1, Res.ok_bind] at he
            cases h2 : takeMultipleLoop C cs gs with
            | panic => simp [h2] at he
            | ok r =>
              obtain ⟨o2, k2, cs'⟩ := r
              simp only [h2, Res.ok_bind, Res.pure_eq, Res.ok.injEq, Prod.mk.injEq] at he
              obtain ⟨rfl, rfl, rfl⟩ := he
              have e1 := sC _ _ _ _ _ (h c (by simp)) h1
              have e2 := ih _ _ _ _ (fun d hd => h d (by simp [hd])) h2
              rw [List.map_append, List.flatten_cons]
              subperms [e1, e2] []
  intro (s : List C.State) ks out ks' s' h he
  obtain ⟨G, d1, d2, d3, d4⟩ := distribute_replicate hash id s.length h.1 ks
  simp only [associative, Associative.takeMultiple, d1, Res.ok_bind] at he
  exact (loop _ _ _ _ _ h.2.inv he).trans d3.subperm

/-! ## Wrappers -/

theorem viaDefault_fair {C : Block K V} {I : C.State → Prop} {ec Pre} (hC : Core C I ec Pre) :
    Fair (viaDefault C) I := by
  intro s ks out ks' s' h he
  obtain ⟨o, s1, h1, -, -, -, h5, -⟩ := defaultTakeMultiple_spec hC ks s h
  simp only [viaDefault, h1, Res.ok_bind, Res.pure_eq, Res.ok.injEq, Prod.mk.injEq] at he
  obtain ⟨rfl, rfl, rfl⟩ := he
  exact h5.subperm

theorem viaDefault_keepsSorted [LinearOrder K] {C : Block K V} {I : C.State → Prop} {ec Pre}
    (hC : Core C I ec Pre) : KeepsSorted (viaDefault C) I := by
  intro s ks out ks' s' h hs he
  obtain ⟨o, s1, h1, -⟩ := defaultTakeMultiple_spec hC ks s h
  simp only [viaDefault, h1, Res.ok_bind, Res.pure_eq, Res.ok.injEq, Prod.mk.injEq] at he
  obtain ⟨rfl, rfl, rfl⟩ := he
  exact hs

theorem decorator_fair (D : Decoration V) {C : Block K D.Item} {I : C.State → Prop}
    (sC : Fair C I) : Fair (decorator D C) (fun s => I s.1) := by
  intro s ks out ks' s' h he
  simp only [decorator] at he
  cases h1 : C.takeMultiple s.1 ks with
  | panic => simp [h1] at he
  | ok r =>
    obtain ⟨o1, k1, c'⟩ := r
    simp only [h1, Res.ok_bind, Res.pure_eq, Res.ok.injEq, Prod.mk.injEq] at he
    obtain ⟨rfl, rfl, rfl⟩ := he
    have := sC _ _ _ _ _ h h1
    simpa [List.map_map, strip, Function.comp_def] using this

theorem decorator_keepsSorted [LinearOrder K] (D : Decoration V) {C : Block K D.Item}
    {I : C.State → Prop} (kC : KeepsSorted C I) : KeepsSorted (decorator D C) (fun s => I s.1) := by
  intro s ks out ks' s' h hs he
  simp only [decorator] at he
  cases h1 : C.takeMultiple s.1 ks with
  | panic => simp [h1] at he
  | ok r =>
    obtain ⟨o1, k1, c'⟩ := r
    simp only [h1, Res.ok_bind, Res.pure_eq, Res.ok.injEq, Prod.mk.injEq] at he
    obtain ⟨rfl, rfl, rfl⟩ := he
    exact kC _ _ _ _ _ h hs h1

theorem profiler_takeMultiple_ok {C : Block K V} {s : C.State × Stats} {ks ks' : List K}
    {out : List (K × V)} {s' : C.State × Stats}
    (he : (profiler C).takeMultiple s ks = .ok (out, ks', s')) :
    C.takeMultiple s.1 ks = .ok (out, ks', s'.1) ∧ out.length ≤ ks.length := by
  simp only [profiler] at he
  cases h1 : C.takeMultiple s.1 ks with
  | panic => simp [h1] at he
  | ok r =>
    obtain ⟨o1, k1, c'⟩ := r
    simp only [h1, Res.ok_bind] at he
    by_cases h2 : o1.length ≤ ks.length
    · simp only [Res.sub_ok h2, Res.ok_bind, Res.pure_eq, Res.ok.injEq, Prod.mk.injEq] at he
      obtain ⟨rfl, rfl, rfl⟩ := he
      exact ⟨rfl, h2⟩
    · simp [Res.sub, h2] at he

theorem profiler_fair {C : Block K V} {I : C.State → Prop} (sC : Fair C I) :
    Fair (profiler C) (fun s => I s.1) := by
  intro s ks out ks' s' h he
  exact sC _ _ _ _ _ h (profiler_takeMultiple_ok he).1

theorem profiler_keepsSorted [LinearOrder K] {C : Block K V} {I : C.State → Prop}
    (kC : KeepsSorted C I) : KeepsSorted (profiler C) (fun s => I s.1) := by
  intro s ks out ks' s' h hs he
  exact kC _ _ _ _ _ h hs (profiler_takeMultiple_ok he).1

end Byoc
