import Verif.Model.Combinators
import Verif.Proofs.Std

/-! # `Exclusive` preserves the contract -/

namespace Byoc

variable {K V : Type}

theorem foldl_removeFound_subperm [LinearOrder K] (l : List K) :
    ∀ ks : List K, (l.foldl removeFound ks).Subperm ks := by
  induction l with
  | nil => intro ks; exact List.Subperm.refl _
  | cons a l ih => intro ks; exact (ih _).trans (removeFound_subperm ks a)

theorem mem_foldl_removeFound [LinearOrder K] (l : List K) :
    ∀ {ks : List K} {k : K}, k ∈ ks → k ∉ l → k ∈ l.foldl removeFound ks := by
  induction l with
  | nil => intro ks k h _; exact h
  | cons a l ih =>
    intro ks k h hn
    simp at hn
    exact ih (mem_removeFound h hn.1) hn.2

theorem foldl_removeFound_sorted [LinearOrder K] (l : List K) :
    ∀ {ks : List K}, ks.Pairwise (· ≤ ·) → (l.foldl removeFound ks).Pairwise (· ≤ ·) := by
  induction l with
  | nil => intro ks h; exact h
  | cons a l ih => intro ks h; exact ih (removeFound_sorted a h)

theorem hasKey_append {l₁ l₂ : List (K × V)} {k : K} :
    HasKey (l₁ ++ l₂) k ↔ HasKey l₁ k ∨ HasKey l₂ k := by
  simp [HasKey, exists_or]

theorem hasKey_perm {l₁ l₂ : List (K × V)} {k : K} (h : l₁.Perm l₂) :
    HasKey l₁ k ↔ HasKey l₂ k := by
  simp [HasKey, h.mem_iff]

/-- Elements of an `Exclusive`: those of the front and those of the back. -/
def exclusiveElems {F B : Block K V} (ef : F.State → List (K × V)) (eb : B.State → List (K × V))
    (s : F.State × B.State) : List (K × V) := ef s.1 ++ eb s.2

theorem exclusive_core [LinearOrder K] {F B : Block K V} {If Ib ef eb Pre}
    (hF : Core F If ef Pre) (hB : Core B Ib eb (fun _ => True)) :
    Core (exclusive F B) (fun s => If s.1 ∧ Ib s.2) (exclusiveElems ef eb) Pre where
  bounded s h := Nat.add_le_add (hF.bounded s.1 h.1) (hB.bounded s.2 h.2)
  empty_size s h he := by
    simp only [exclusiveElems, List.append_eq_nil_iff] at he
    simp [exclusive, hF.empty_size s.1 h.1 he.1, hB.empty_size s.2 h.2 he.2]
  contains s k h := by
    obtain ⟨b, f, h1, h2, h3, h4, h5, h6⟩ := hF.contains s.1 k h.1
    cases b with
    | true =>
      refine ⟨true, (f, s.2), by simp [exclusive, h1], ⟨h2, h.2⟩, by simp [exclusive, h3],
        by simp [exclusive, h4], by simp [exclusiveElems, h5], ?_⟩
      simp only [exclusiveElems, hasKey_append]
      exact ⟨fun _ => Or.inl (h6.1 rfl), fun _ => by simp⟩
    | false =>
      obtain ⟨b, r, g1, g2, g3, g4, g5, g6⟩ := hB.contains s.2 k h.2
      refine ⟨b, (f, r), by simp [exclusive, h1, g1], ⟨h2, g2⟩, by simp [exclusive, h3, g3],
        by simp [exclusive, h4, g4], by simp [exclusiveElems, h5, g5], ?_⟩
      simp only [exclusiveElems, hasKey_append]
      rw [g6]
      constructor
      · exact Or.inr
      · rintro (h7 | h7)
        · exact absurd (h6.2 h7) (by simp)
        · exact h7
  take s k h := by
    obtain ⟨o, f, h1, h2, h3, h4⟩ := hF.take s.1 k h.1
    cases o with
    | some e =>
      refine ⟨some e, (f, s.2), by simp [exclusive, h1], ⟨h2, h.2⟩, by simp [exclusive, h3], h4.1, ?_⟩
      simp only [exclusiveElems]
      perms [h4.2]
    | none =>
      obtain ⟨o, b, g1, g2, g3, g4⟩ := hB.take s.2 k h.2
      refine ⟨o, (f, b), by simp [exclusive, h1, g1], ⟨h2, g2⟩, by simp [exclusive, h3, g3], ?_⟩
      cases o with
      | some e =>
        refine ⟨g4.1, ?_⟩
        simp only [exclusiveElems]
        perms [h4.2, g4.2]
      | none =>
        simp only [exclusiveElems, hasKey_append]
        exact ⟨by simp [h4.1, g4.1], h4.2.append g4.2⟩
  takeMultiple s ks h := by
    obtain ⟨out, ks1, f, h1, h2, h3, h4, h5, h6, h7, h8⟩ := hF.takeMultiple s.1 (sortKeys ks) h.1
    obtain ⟨out', ks2, b, g1, g2, g3, g4, g5, g6, g7, g8⟩ :=
      hB.takeMultiple s.2 ((out.map Prod.fst).foldl removeFound ks1) h.2
    have hsub1 := (foldl_removeFound_subperm (out.map Prod.fst) ks1).trans
      (h7.trans (sortKeys_perm ks).subperm)
    refine ⟨out ++ out', (out'.map Prod.fst).foldl removeFound ks2, (f, b),
      by simp [exclusive, h1, g1], ⟨h2, g2⟩, by simp [exclusive, h3, g3], ?_, ?_, ?_, ?_, ?_⟩
    · simp only [exclusiveElems]
      perms [h4, g4]
    · intro e he
      rcases List.mem_append.1 he with he | he
      · exact (sortKeys_perm ks).mem_iff.1 (h5 e he)
      · exact hsub1.subset (g5 e he)
    · intro k hk hs
      have hk' := (sortKeys_perm ks).mem_iff.2 hk
      rw [hasKey_append]
      by_cases hf : HasKey out k
      · exact Or.inl hf
      · right
        have hb : HasKey (eb s.2) k := by
          rcases (hasKey_append.1 hs) with hs | hs
          · exact absurd (h6 k hk' hs) hf
          · exact hs
        apply g6 k _ hb
        exact mem_foldl_removeFound _ (h8 k hk' hf) (by rwa [hasKey_iff_mem_map] at hf)
    · exact ((foldl_removeFound_subperm _ ks2).trans g7).trans hsub1
    · intro k hk hn
      rw [hasKey_append, not_or] at hn
      have hk' := (sortKeys_perm ks).mem_iff.2 hk
      have h9 := mem_foldl_removeFound (out.map Prod.fst) (h8 k hk' hn.1)
        (by rw [← hasKey_iff_mem_map]; exact hn.1)
      exact mem_foldl_removeFound _ (g8 k h9 hn.2) (by rw [← hasKey_iff_mem_map]; exact hn.2)
  push s l h hp := by
    obtain ⟨out, f, h1, h2, h3, h4⟩ := hF.push s.1 l h.1 hp
    obtain ⟨out', b, g1, g2, g3, g4⟩ := hB.push s.2 out h.2 trivial
    refine ⟨out', (f, b), by simp [exclusive, h1, g1], ⟨h2, g2⟩, by simp [exclusive, h3, g3], ?_⟩
    simp only [exclusiveElems]
    perms [h4, g4]
  flush s h := by
    obtain ⟨o1, b1, h1, h2, h3, h4⟩ := hB.flush s.2 h.2
    obtain ⟨o2, f, g1, g2, g3, g4⟩ := hF.flush s.1 h.1
    obtain ⟨o3, b2, i1, i2, i3, i4⟩ := hB.push b1 o2 h2 trivial
    obtain ⟨o4, b3, j1, j2, j3, j4⟩ := hB.flush b2 i2
    refine ⟨o1 ++ (o3 ++ o4), (f, b3), by simp [exclusive, h1, g1, i1, j1], ⟨g2, j2⟩,
      by simp [exclusive, h3, g3, i3, j3], ?_⟩
    simp only [exclusiveElems]
    perms [h4, g4, i4, j4]

theorem exclusive_lawful [LinearOrder K] {F B : Block K V} {If Ib ef eb Pre}
    (hF : Lawful F If ef Pre) (hB : Lawful B Ib eb (fun _ => True)) :
    Lawful (exclusive F B) (fun s => If s.1 ∧ Ib s.2) (exclusiveElems ef eb) Pre where
  toCore := exclusive_core hF.toCore hB.toCore
  pop s n h := by
    obtain ⟨out, b, h1, h2, h3, h4, h5⟩ := hB.pop s.2 n h.2
    have hle : B.size b ≤ B.size s.2 := by
      rcases h5 with h5 | h5
      · omega
      · rw [hB.empty_size b h2 h5]; omega
    by_cases hc : B.size s.2 - B.size b < n
    · obtain ⟨out', f, g1, g2, g3, g4, g5⟩ := hF.pop s.1 (n - (B.size s.2 - B.size b)) h.1
      have hbe : eb b = [] := by
        rcases h5 with h5 | h5
        · omega
        · exact h5
      refine ⟨out ++ out', (f, b), by simp [exclusive, h1, Res.sub_ok hle, hc, g1], ⟨g2, h2⟩,
        by simp [exclusive, h3, g3], ?_, ?_⟩
      · simp only [exclusiveElems]
        perms [h4, g4]
      · rcases g5 with g5 | g5
        · left; simp [exclusive]; omega
        · right; simp [exclusiveElems, hbe, g5]
    · refine ⟨out, (s.1, b), by simp [exclusive, h1, Res.sub_ok hle, hc], ⟨h.1, h2⟩,
        by simp [exclusive, h3], ?_, Or.inl ?_⟩
      · simp only [exclusiveElems]
        perms [h4]
      · simp [exclusive]; omega

theorem exclusive_flushes [LinearOrder K] {F B : Block K V} {If Ib ef eb Pre}
    (hF : Core F If ef Pre) (hB : Core B Ib eb (fun _ => True))
    (fF : Flushes F If ef) (fB : Flushes B Ib eb) :
    Flushes (exclusive F B) (fun s => If s.1 ∧ Ib s.2) (exclusiveElems ef eb) := by
  intro s h
  obtain ⟨o1, b1, h1, h2, h3, h4⟩ := hB.flush s.2 h.2
  obtain ⟨o2, f, g1, g2, g3, g4⟩ := hF.flush s.1 h.1
  obtain ⟨o3, b2, i1, i2, i3, i4⟩ := hB.push b1 o2 h2 trivial
  obtain ⟨o4, b3, j1, j2, j3, j4⟩ := hB.flush b2 i2
  have hf : ef f = [] := by
    obtain ⟨o, f', k1, k2, -⟩ := fF s.1 h.1
    rw [g1] at k1; cases k1; exact k2
  have hb : eb b3 = [] := by
    obtain ⟨o, f', k1, k2, -⟩ := fB b2 i2
    rw [j1] at k1; cases k1; exact k2
  refine ⟨o1 ++ (o3 ++ o4), (f, b3), by simp [exclusive, h1, g1, i1, j1],
    by simp [exclusiveElems, hf, hb], ?_⟩
  simp only [exclusiveElems]
  rw [hf] at g4
  rw [hb] at j4
  perms [h4, g4, i4, j4]

theorem exclusive_strict [LinearOrder K] {F B : Block K V} {If Ib ef eb Pre Pre'}
    (hF : Core F If ef Pre) (_ : Core B Ib eb Pre')
    (sF : Strict F If) (sB : Strict B Ib) :
    Strict (exclusive F B) (fun s => If s.1 ∧ Ib s.2) := by
  intro s ks out ks' s' h he
  obtain ⟨o1, k1, f, h1, -⟩ := hF.takeMultiple s.1 (sortKeys ks) h.1
  have hs1 := sF _ _ _ _ _ h.1 h1
  simp only [exclusive, h1, Res.ok_bind] at he
  cases hb : B.takeMultiple s.2 ((o1.map Prod.fst).foldl removeFound k1) with
  | panic => simp [hb] at he
  | ok r =>
    obtain ⟨o2, k2, b⟩ := r
    simp only [hb, Res.ok_bind, Res.pure_eq, Res.ok.injEq, Prod.mk.injEq] at he
    obtain ⟨rfl, rfl, rfl⟩ := he
    have hs2 := sB _ _ _ _ _ h.2 hb
    rw [List.map_append]
    have h3 := foldl_removeFound_subperm (o1.map Prod.fst) k1
    have h4 := foldl_removeFound_subperm (o2.map Prod.fst) k2
    subperms [h3, h4, hs1, hs2] [sortKeys_perm ks]

end Byoc
