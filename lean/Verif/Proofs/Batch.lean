import Verif.Proofs.Exclusive

/-! # `Batch`, `FlushStopper`, default `take_multiple`, `Decorator`, `Profiler` preserve the contract -/

namespace Byoc

variable {K V : Type}

/-! ## Batch -/

/-- Elements of a `Batch` (or an `Associative`): those of each batch. -/
def batchElems {S : Type} (ec : S → List (K × V)) (s : List S) : List (K × V) := s.flatMap ec

/-- Every batch satisfies `I`. -/
def batchInv {S : Type} (I : S → Prop) (s : List S) : Prop := ∀ c ∈ s, I c

section
variable {C : Block K V} {I : C.State → Prop} {ec : C.State → List (K × V)}

@[simp] theorem batchElems_nil {S : Type} (ec : S → List (K × V)) : batchElems ec [] = [] := rfl
@[simp] theorem batchElems_cons {S : Type} (ec : S → List (K × V)) (c cs) :
    batchElems ec (c :: cs) = ec c ++ batchElems ec cs := by simp [batchElems]
@[simp] theorem batchElems_append {S : Type} (ec : S → List (K × V)) (cs ds) :
    batchElems ec (cs ++ ds) = batchElems ec cs ++ batchElems ec ds := by simp [batchElems]

theorem batchElems_reverse {S : Type} (ec : S → List (K × V)) (cs) :
    (batchElems ec cs.reverse).Perm (batchElems ec cs) := by
  induction cs with
  | nil => simp
  | cons c cs ih => simp only [List.reverse_cons, batchElems_append, batchElems_cons,
      batchElems_nil]; perms [ih]

theorem Batch.contains_spec {Pre} (hC : Core C I ec Pre) (k : K) :
    ∀ s : List C.State, (∀ c ∈ s, I c) → ∃ b s', Batch.contains C s k = .ok (b, s') ∧
      (∀ c ∈ s', I c) ∧ s'.map C.capacity = s.map C.capacity ∧ s'.map C.size = s.map C.size ∧
      s'.map ec = s.map ec ∧ (b = true ↔ HasKey (batchElems ec s) k) := by
  intro s
  induction s with
  | nil => intro _; exact ⟨false, [], rfl, by simp, rfl, rfl, rfl, by simp [HasKey]⟩
  | cons c cs ih =>
    intro h
    obtain ⟨b, c', h1, h2, h3, h4, h5, h6⟩ := hC.contains c k (h c (by simp))
    cases b with
    | true =>
      refine ⟨true, c' :: cs, by simp [Batch.contains, h1], ?_, by simp [h3], by simp [h4],
        by simp [h5], ?_⟩
      · intro d hd
        rcases List.mem_cons.1 hd with rfl | hd
        · exact h2
        · exact h d (by simp [hd])
      · simp only [batchElems_cons, hasKey_append, ← h6, true_or]
    | false =>
      obtain ⟨b, cs', g1, g2, g3, g4, g5, g6⟩ := ih (fun d hd => h d (by simp [hd]))
      refine ⟨b, c' :: cs', by simp [Batch.contains, h1, g1], ?_, by simp [h3, g3], by simp [h4, g4],
        by simp [h5, g5], ?_⟩
      · intro d hd
        rcases List.mem_cons.1 hd with rfl | hd
        · exact h2
        · exact g2 d hd
      · simp only [batchElems_cons, hasKey_append, ← h6, g6]; simp

theorem Batch.take_spec {Pre} (hC : Core C I ec Pre) (k : K) :
    ∀ s : List C.State, (∀ c ∈ s, I c) → ∃ o s', Batch.take C s k = .ok (o, s') ∧
      (∀ c ∈ s', I c) ∧ s'.map C.capacity = s.map C.capacity ∧
      match o with
      | none => ¬ HasKey (batchElems ec s) k ∧ (batchElems ec s').Perm (batchElems ec s)
      | some e => e.1 = k ∧ (e :: batchElems ec s').Perm (batchElems ec s) := by
  intro s
  induction s with
  | nil => intro _; exact ⟨none, [], rfl, by simp, rfl, by rintro ⟨v, hv⟩; simp at hv, by simp⟩
  | cons c cs ih =>
    intro h
    obtain ⟨o, c', h1, h2, h3, h4⟩ := hC.take c k (h c (by simp))
    cases o with
    | some e =>
      refine ⟨some e, c' :: cs, by simp [Batch.take, h1], ?_, by simp [h3], h4.1, ?_⟩
      · intro d hd
        rcases List.mem_cons.1 hd with rfl | hd
        · exact h2
        · exact h d (by simp [hd])
      · simp only [batchElems_cons]; perms [h4.2]
    | none =>
      obtain ⟨o, cs', g1, g2, g3, g4⟩ := ih (fun d hd => h d (by simp [hd]))
      refine ⟨o, c' :: cs', by simp [Batch.take, h1, g1], ?_, by simp [h3, g3], ?_⟩
      · intro d hd
        rcases List.mem_cons.1 hd with rfl | hd
        · exact h2
        · exact g2 d hd
      · cases o with
        | some e =>
          refine ⟨g4.1, ?_⟩
          simp only [batchElems_cons]; perms [h4.2, g4.2]
        | none =>
          simp only [batchElems_cons, hasKey_append]
          exact ⟨by simp [h4.1, g4.1], h4.2.append g4.2⟩

theorem Batch.takeMultiple_spec {Pre} (hC : Core C I ec Pre) :
    ∀ (s : List C.State) (ks : List K), (∀ c ∈ s, I c) →
      ∃ out ks' s', Batch.takeMultiple C s ks = .ok (out, ks', s') ∧
      (∀ c ∈ s', I c) ∧ s'.map C.capacity = s.map C.capacity ∧
      (batchElems ec s' ++ out).Perm (batchElems ec s) ∧
      (∀ e ∈ out, e.1 ∈ ks) ∧ (∀ k ∈ ks, HasKey (batchElems ec s) k → HasKey out k) ∧
      ks'.Subperm ks ∧ (∀ k ∈ ks, ¬ HasKey out k → k ∈ ks') := by
  intro s
  induction s with
  | nil =>
    intro ks _
    exact ⟨[], ks, [], by simp [Batch.takeMultiple], by simp, rfl, by simp, by simp,
      by simp [HasKey], List.Subperm.refl _, fun k hk _ => hk⟩
  | cons c cs ih =>
    intro ks h
    cases hks : ks with
    | nil =>
      exact ⟨[], [], c :: cs, by simp [Batch.takeMultiple], h, rfl, by simp, by simp,
        by simp, List.Subperm.refl _, by simp⟩
    | cons k0 ks0 =>
      rw [← hks]
      obtain ⟨out, ks1, c', h1, h2, h3, h4, h5, h6, h7, h8⟩ := hC.takeMultiple c ks (h c (by simp))
      obtain ⟨outs, ks2, cs', g1, g2, g3, g4, g5, g6, g7, g8⟩ :=
        ih ks1 (fun d hd => h d (by simp [hd]))
      refine ⟨out ++ outs, ks2, c' :: cs', ?_, ?_, by simp [h3, g3], ?_, ?_, ?_, g7.trans h7, ?_⟩
      · rw [hks] at h1 ⊢
        simp [Batch.takeMultiple, h1, g1]
      · intro d hd
        rcases List.mem_cons.1 hd with rfl | hd
        · exact h2
        · exact g2 d hd
      · simp only [batchElems_cons]; perms [h4, g4]
      · intro e he
        rcases List.mem_append.1 he with he | he
        · exact h5 e he
        · exact h7.subset (g5 e he)
      · intro k hk hs
        rw [hasKey_append]
        by_cases hf : HasKey out k
        · exact Or.inl hf
        · right
          simp only [batchElems_cons, hasKey_append] at hs
          rcases hs with hs | hs
          · exact absurd (h6 k hk hs) hf
          · exact g6 k (h8 k hk hf) hs
      · intro k hk hn
        rw [hasKey_append, not_or] at hn
        exact g8 k (h8 k hk hn.1) hn.2

theorem Batch.popLoop_spec {Pre} (hC : Lawful C I ec Pre) :
    ∀ (s : List C.State) (n : Nat), (∀ c ∈ s, I c) → ∃ out s', Batch.popLoop C s n = .ok (out, s') ∧
      (∀ c ∈ s', I c) ∧ s'.map C.capacity = s.map C.capacity ∧
      (batchElems ec s' ++ out).Perm (batchElems ec s) ∧
      ((s'.map C.size).sum + n ≤ (s.map C.size).sum ∨ batchElems ec s' = []) := by
  intro s
  induction s with
  | nil => intro n _; exact ⟨[], [], rfl, by simp, rfl, by simp, Or.inr rfl⟩
  | cons c cs ih =>
    intro n h
    obtain ⟨out, c', h1, h2, h3, h4, h5⟩ := hC.pop c n (h c (by simp))
    have hle : C.size c' ≤ C.size c := by
      rcases h5 with h5 | h5
      · omega
      · rw [hC.empty_size c' h2 h5]; omega
    by_cases hc : n ≤ C.size c - C.size c'
    · refine ⟨out, c' :: cs, by simp [Batch.popLoop, h1, Res.sub_ok hle, hc], ?_, by simp [h3], ?_, ?_⟩
      · intro d hd
        rcases List.mem_cons.1 hd with rfl | hd
        · exact h2
        · exact h d (by simp [hd])
      · simp only [batchElems_cons]; perms [h4]
      · left; simp; omega
    · obtain ⟨outs, cs', g1, g2, g3, g4, g5⟩ :=
        ih (n - (C.size c - C.size c')) (fun d hd => h d (by simp [hd]))
      have hce : ec c' = [] := by
        rcases h5 with h5 | h5
        · omega
        · exact h5
      refine ⟨out ++ outs, c' :: cs', by simp [Batch.popLoop, h1, Res.sub_ok hle, hc, g1], ?_,
        by simp [h3, g3], ?_, ?_⟩
      · intro d hd
        rcases List.mem_cons.1 hd with rfl | hd
        · exact h2
        · exact g2 d hd
      · simp only [batchElems_cons]; perms [h4, g4]
      · rcases g5 with g5 | g5
        · left; simp; omega
        · right; simp [hce, g5]

theorem Batch.pushLoop_spec (hC : Core C I ec (fun _ => True)) :
    ∀ (s : List C.State) (l : List (K × V)), (∀ c ∈ s, I c) →
      ∃ out rest used, Batch.pushLoop C s l = .ok (out, rest, used) ∧
      (∀ c ∈ rest ++ used, I c) ∧
      used.map C.capacity ++ rest.map C.capacity = s.map C.capacity ∧
      (batchElems ec (rest ++ used) ++ out).Perm (batchElems ec s ++ l) := by
  intro s
  induction s with
  | nil =>
    intro l _
    cases l with
    | nil => exact ⟨[], [], [], rfl, by simp, rfl, by simp⟩
    | cons v vs => exact ⟨v :: vs, [], [], rfl, by simp, rfl, by simp⟩
  | cons c cs ih =>
    intro l h
    cases l with
    | nil => exact ⟨[], c :: cs, [], rfl, by simpa using h, by simp, by simp⟩
    | cons v vs =>
      obtain ⟨out, c', h1, h2, h3, h4⟩ := hC.push c (v :: vs) (h c (by simp)) trivial
      obtain ⟨out', rest, used, g1, g2, g3, g4⟩ := ih out (fun d hd => h d (by simp [hd]))
      refine ⟨out', rest, c' :: used, by simp [Batch.pushLoop, h1, g1], ?_, ?_, ?_⟩
      · intro d hd
        simp only [List.mem_append, List.mem_cons] at hd
        rcases hd with hd | rfl | hd
        · exact g2 d (by simp [hd])
        · exact h2
        · exact g2 d (by simp [hd])
      · simp [h3, g3]
      · simp only [batchElems_append, batchElems_cons] at g4 ⊢
        perms [g4, h4]

theorem Batch.flush_spec {Pre} (hC : Core C I ec Pre) :
    ∀ (s : List C.State), (∀ c ∈ s, I c) → ∃ out s', Batch.flush C s = .ok (out, s') ∧
      (∀ c ∈ s', I c) ∧ s'.map C.capacity = s.map C.capacity ∧
      (batchElems ec s' ++ out).Perm (batchElems ec s) := by
  intro s
  induction s with
  | nil => intro _; exact ⟨[], [], rfl, by simp, rfl, by simp⟩
  | cons c cs ih =>
    intro h
    obtain ⟨out, c', h1, h2, h3, h4⟩ := hC.flush c (h c (by simp))
    obtain ⟨outs, cs', g1, g2, g3, g4⟩ := ih (fun d hd => h d (by simp [hd]))
    refine ⟨out ++ outs, c' :: cs', by simp [Batch.flush, h1, g1], ?_, by simp [h3, g3], ?_⟩
    · intro d hd
      rcases List.mem_cons.1 hd with rfl | hd
      · exact h2
      · exact g2 d hd
    · simp only [batchElems_cons]; perms [h4, g4]

theorem batch_core (hC : Core C I ec (fun _ => True)) :
    Core (batch C) (batchInv I) (batchElems ec) (fun _ => True) where
  bounded := by
    intro (s : List C.State) (h : ∀ c ∈ s, I c)
    change (s.map C.size).sum ≤ (s.map C.capacity).sum
    induction s with
    | nil => simp
    | cons c cs ih =>
      have := ih (fun d hd => h d (by simp [hd]))
      have := hC.bounded c (h c (by simp))
      simp; omega
  empty_size := by
    intro (s : List C.State) (h : ∀ c ∈ s, I c) he
    change (s.map C.size).sum = 0
    induction s with
    | nil => simp
    | cons c cs ih =>
      simp only [batchElems_cons, List.append_eq_nil_iff] at he
      have := ih (fun d hd => h d (by simp [hd])) he.2
      have := hC.empty_size c (h c (by simp)) he.1
      simp; omega
  contains s k h := by
    obtain ⟨b, s', h1, h2, h3, h4, h5, h6⟩ := Batch.contains_spec hC k s h
    refine ⟨b, s', h1, h2, by simp [batch, h3], by simp [batch, h4], ?_, h6⟩
    exact (List.flatMap_def (l := s')).trans ((congrArg List.flatten h5).trans List.flatMap_def.symm)
  take s k h := by
    obtain ⟨o, s', h1, h2, h3, h4⟩ := Batch.take_spec hC k s h
    exact ⟨o, s', h1, h2, by simp [batch, h3], h4⟩
  takeMultiple s ks h := by
    obtain ⟨out, ks', s', h1, h2, h3, h4⟩ := Batch.takeMultiple_spec hC s ks h
    exact ⟨out, ks', s', h1, h2, by simp [batch, h3], h4⟩
  push s l h _ := by
    obtain ⟨out, rest, used, h1, h2, h3, h4⟩ := Batch.pushLoop_spec hC s l h
    refine ⟨out, rest ++ used, by simp [batch, Batch.push, h1], h2, ?_, h4⟩
    have := congrArg List.sum h3
    simp only [List.sum_append, batch, List.map_append] at this ⊢
    omega
  flush s h := by
    obtain ⟨out, s', h1, h2, h3, h4⟩ := Batch.flush_spec hC s h
    exact ⟨out, s', h1, h2, by simp [batch, h3], h4⟩

theorem batch_lawful (hC : Lawful C I ec (fun _ => True)) :
    Lawful (batch C) (batchInv I) (batchElems ec) (fun _ => True) where
  toCore := batch_core hC.toCore
  pop := by
    intro (s : List C.State) n (h : ∀ c ∈ s, I c)
    obtain ⟨out, s', h1, h2, h3, h4, h5⟩ :=
      Batch.popLoop_spec hC s.reverse n (by simpa using h)
    refine ⟨out, s'.reverse, by simp [batch, Batch.pop, h1], by simpa [batchInv] using h2, ?_, ?_, ?_⟩
    · simp only [batch, List.map_reverse, List.sum_reverse, h3]
    · have e1 := batchElems_reverse ec s
      have e2 := batchElems_reverse ec s'
      perms [h4, e1, e2]
    · rcases h5 with h5 | h5
      · left
        simp only [batch, List.map_reverse, List.sum_reverse] at h5 ⊢
        exact h5
      · right
        have e2 := batchElems_reverse ec s'
        rw [h5] at e2
        exact List.perm_nil.1 e2

theorem Batch.flush_empties (fC : Flushes C I ec) :
    ∀ (s : List C.State), (∀ c ∈ s, I c) → ∃ out s', Batch.flush C s = .ok (out, s') ∧
      batchElems ec s' = [] ∧ out.Perm (batchElems ec s) := by
  intro s
  induction s with
  | nil => intro _; exact ⟨[], [], rfl, rfl, by simp⟩
  | cons c cs ih =>
    intro h
    obtain ⟨out, c', h1, h2, h3⟩ := fC c (h c (by simp))
    obtain ⟨outs, cs', g1, g2, g3⟩ := ih (fun d hd => h d (by simp [hd]))
    exact ⟨out ++ outs, c' :: cs', by simp [Batch.flush, h1, g1], by simp [h2, g2],
      by simpa using h3.append g3⟩

theorem batch_flushes (fC : Flushes C I ec) :
    Flushes (batch C) (batchInv I) (batchElems ec) :=
  fun s h => Batch.flush_empties fC s h

theorem batch_strict (sC : Strict C I) :
    Strict (batch C) (batchInv I) := by
  intro (s : List C.State)
  induction s with
  | nil =>
    intro ks out ks' s' _ he
    simp only [batch, Batch.takeMultiple, Res.ok.injEq, Prod.mk.injEq] at he
    obtain ⟨rfl, rfl, rfl⟩ := he
    exact List.Subperm.refl _
  | cons c cs ih =>
    intro ks out ks' s' h he
    cases ks with
    | nil =>
      simp only [batch, Batch.takeMultiple, Res.ok.injEq, Prod.mk.injEq] at he
      obtain ⟨rfl, rfl, rfl⟩ := he
      simp
    | cons k0 ks0 =>
      simp only [batch, Batch.takeMultiple] at he
      cases h1 : C.takeMultiple c (k0 :: ks0) with
      | panic => simp [h1] at he
      | ok r =>
        obtain ⟨o1, k1, c'⟩ := r
        simp only [h1, Res.ok_bind] at he
        cases h2 : Batch.takeMultiple C cs k1 with
        | panic => simp [h2] at he
        | ok r =>
          obtain ⟨o2, k2, cs'⟩ := r
          simp only [h2, Res.ok_bind, Res.pure_eq, Res.ok.injEq, Prod.mk.injEq] at he
          obtain ⟨rfl, rfl, rfl⟩ := he
          have e1 := sC _ _ _ _ _ (h c (by simp)) h1
          have e2 := ih _ _ _ _ (fun d hd => h d (by simp [hd])) h2
          rw [List.map_append]
          subperms [e1, e2] []

/-! ## FlushStopper -/

theorem flushStopper_core {Pre} (hC : Core C I ec Pre) :
    Core (flushStopper C) I ec Pre where
  bounded := hC.bounded
  empty_size := hC.empty_size
  contains := hC.contains
  take := hC.take
  takeMultiple := hC.takeMultiple
  push := hC.push
  flush s h := ⟨[], s, rfl, h, rfl, by simp⟩

theorem flushStopper_lawful {Pre} (hC : Lawful C I ec Pre) :
    Lawful (flushStopper C) I ec Pre where
  toCore := flushStopper_core hC.toCore
  pop := hC.pop

theorem flushStopper_strict (sC : Strict C I) : Strict (flushStopper C) I := sC

/-! ## Default `take_multiple` -/

theorem defaultTakeMultiple_spec {Pre} (hC : Core C I ec Pre) :
    ∀ (ks : List K) (s : C.State), I s → ∃ out s', defaultTakeMultiple C.take s ks = .ok (out, s') ∧
      I s' ∧ C.capacity s' = C.capacity s ∧ (ec s' ++ out).Perm (ec s) ∧
      (out.map Prod.fst).Sublist ks ∧ (∀ k ∈ ks, HasKey (ec s) k → HasKey out k) := by
  intro ks
  induction ks with
  | nil => intro s h; exact ⟨[], s, rfl, h, rfl, by simp, by simp, by simp⟩
  | cons k ks ih =>
    intro s h
    obtain ⟨o, s1, h1, h2, h3, h4⟩ := hC.take s k h
    obtain ⟨out, s2, g1, g2, g3, g4, g5, g6⟩ := ih s1 h2
    refine ⟨o.toList ++ out, s2, by simp [defaultTakeMultiple, h1, g1], g2, g3.trans h3, ?_, ?_, ?_⟩
    · cases o with
      | none => simp only [Option.toList, List.nil_append]; exact g4.trans h4.2
      | some e => simp only [Option.toList]; perms [g4, h4.2]
    · cases o with
      | none => simpa using g5.cons k
      | some e => simp only [Option.toList, List.cons_append, List.nil_append, List.map_cons, h4.1]; exact g5.cons_cons k
    · intro k' hk' hs
      cases o with
      | none =>
        simp only [Option.toList, List.nil_append]
        have hs1 := (hasKey_perm h4.2).2 hs
        rcases List.mem_cons.1 hk' with rfl | hk'
        · exact absurd hs h4.1
        · exact g6 k' hk' hs1
      | some e =>
        simp only [Option.toList]
        rw [hasKey_append]
        by_cases he : k' = k
        · subst he
          left
          refine ⟨e.2, ?_⟩
          simp [← h4.1]
        · right
          have hk2 : k' ∈ ks := by
            rcases List.mem_cons.1 hk' with h | h
            · exact absurd h he
            · exact h
          apply g6 k' hk2
          have := (hasKey_perm h4.2).2 hs
          obtain ⟨v, hv⟩ := this
          rcases List.mem_cons.1 hv with hv | hv
          · exact absurd (by rw [← h4.1, ← hv]) he
          · exact ⟨v, hv⟩

theorem viaDefault_core {Pre} (hC : Core C I ec Pre) :
    Core (viaDefault C) I ec Pre where
  bounded := hC.bounded
  empty_size := hC.empty_size
  contains := hC.contains
  take := hC.take
  takeMultiple s ks h := by
    obtain ⟨out, s', h1, h2, h3, h4, h5, h6⟩ := defaultTakeMultiple_spec hC ks s h
    refine ⟨out, ks, s', by simp [viaDefault, h1], h2, h3, h4, ?_, h6, List.Subperm.refl _, ?_⟩
    · intro e he
      exact h5.subset (List.mem_map.2 ⟨e, he, rfl⟩)
    · intro k hk _; exact hk
  push := hC.push
  flush := hC.flush

theorem viaDefault_lawful {Pre} (hC : Lawful C I ec Pre) :
    Lawful (viaDefault C) I ec Pre where
  toCore := viaDefault_core hC.toCore
  pop := hC.pop

theorem viaDefault_flushes (fC : Flushes C I ec) : Flushes (viaDefault C) I ec := fC

end

/-! ## Decorator -/

/-- Unwrapping gives back what was wrapped. -/
def Decoration.Faithful (D : Decoration V) : Prop := ∀ f v, D.unwrap (D.wrap f v).1 = v

theorem wrapAll_strip (D : Decoration V) (hD : D.Faithful) :
    ∀ (l : List (K × V)) (f : D.Factory), (wrapAll D f l).1.map (strip D) = l := by
  intro l
  induction l with
  | nil => intro f; rfl
  | cons e l ih =>
    intro f
    obtain ⟨k, v⟩ := e
    simp only [wrapAll, List.map_cons, ih]
    simp [strip, hD f v]

theorem wrapAll_keys (D : Decoration V) :
    ∀ (l : List (K × V)) (f : D.Factory), (wrapAll D f l).1.map Prod.fst = l.map Prod.fst := by
  intro l
  induction l with
  | nil => intro f; rfl
  | cons e l ih =>
    intro f
    obtain ⟨k, v⟩ := e
    simp only [wrapAll, List.map_cons, ih]

theorem hasKey_strip (D : Decoration V) (l : List (K × D.Item)) (k : K) :
    HasKey (l.map (strip D)) k ↔ HasKey l k := by
  simp only [hasKey_iff_mem_map, List.map_map]
  rfl

/-- Elements of a `Decorator`: those of the container, undecorated. -/
def decoratorElems (D : Decoration V) {C : Block K D.Item} (ec : C.State → List (K × D.Item))
    (s : C.State × D.Factory) : List (K × V) := (ec s.1).map (strip D)

theorem decorator_core (D : Decoration V) (hD : D.Faithful) {C : Block K D.Item}
    {I : C.State → Prop} {ec : C.State → List (K × D.Item)} {Pre : List (K × D.Item) → Prop}
    (hC : Core C I ec Pre) :
    Core (decorator D C) (fun s => I s.1) (decoratorElems D ec)
      (fun l => ∀ f, Pre (wrapAll D f l).1) where
  bounded s h := hC.bounded s.1 h
  empty_size s h he := hC.empty_size s.1 h (by simpa [decoratorElems] using he)
  contains s k h := by
    obtain ⟨b, c, h1, h2, h3, h4, h5, h6⟩ := hC.contains s.1 k h
    refine ⟨b, (c, s.2), by simp [decorator, h1], h2, h3, h4, by simp [decoratorElems, h5], ?_⟩
    change b = true ↔ HasKey ((ec s.1).map (strip D)) k
    rw [hasKey_strip]; exact h6
  take s k h := by
    obtain ⟨o, c, h1, h2, h3, h4⟩ := hC.take s.1 k h
    refine ⟨o.map (strip D), (c, s.2), by simp [decorator, h1], h2, h3, ?_⟩
    cases o with
    | none =>
      simp only [Option.map_none, decoratorElems, hasKey_strip]
      exact ⟨h4.1, h4.2.map _⟩
    | some e =>
      simp only [Option.map_some, decoratorElems]
      exact ⟨h4.1, by simpa using h4.2.map (strip D)⟩
  takeMultiple s ks h := by
    obtain ⟨out, ks', c, h1, h2, h3, h4, h5, h6, h7, h8⟩ := hC.takeMultiple s.1 ks h
    refine ⟨out.map (strip D), ks', (c, s.2), by simp [decorator, h1], h2, h3, ?_, ?_, ?_, h7, ?_⟩
    · simpa [decoratorElems] using h4.map (strip D)
    · intro e he
      obtain ⟨e', he', rfl⟩ := List.mem_map.1 he
      exact h5 e' he'
    · intro k hk
      change HasKey ((ec s.1).map (strip D)) k → _
      rw [hasKey_strip, hasKey_strip]; exact h6 k hk
    · intro k hk; rw [hasKey_strip]; exact h8 k hk
  push s l h hp := by
    obtain ⟨out, c, h1, h2, h3, h4⟩ := hC.push s.1 (wrapAll D s.2 l).1 h (hp s.2)
    refine ⟨out.map (strip D), (c, (wrapAll D s.2 l).2), by simp [decorator, h1], h2, h3, ?_⟩
    have := h4.map (strip D)
    simpa [decoratorElems, wrapAll_strip D hD] using this
  flush s h := by
    obtain ⟨out, c, h1, h2, h3, h4⟩ := hC.flush s.1 h
    refine ⟨out.map (strip D), (c, s.2), by simp [decorator, h1], h2, h3, ?_⟩
    simpa [decoratorElems] using h4.map (strip D)

theorem decorator_lawful (D : Decoration V) (hD : D.Faithful) {C : Block K D.Item}
    {I : C.State → Prop} {ec : C.State → List (K × D.Item)} {Pre : List (K × D.Item) → Prop}
    (hC : Lawful C I ec Pre) :
    Lawful (decorator D C) (fun s => I s.1) (decoratorElems D ec)
      (fun l => ∀ f, Pre (wrapAll D f l).1) where
  toCore := decorator_core D hD hC.toCore
  pop s n h := by
    obtain ⟨out, c, h1, h2, h3, h4, h5⟩ := hC.pop s.1 n h
    refine ⟨out.map (strip D), (c, s.2), by simp [decorator, h1], h2, h3, ?_, ?_⟩
    · simpa [decoratorElems] using h4.map (strip D)
    · rcases h5 with h5 | h5
      · exact Or.inl h5
      · right; simp [decoratorElems, h5]

theorem decorator_flushes (D : Decoration V) {C : Block K D.Item}
    {I : C.State → Prop} {ec : C.State → List (K × D.Item)} (fC : Flushes C I ec) :
    Flushes (decorator D C) (fun s => I s.1) (decoratorElems D ec) := by
  intro s h
  obtain ⟨out, c, h1, h2, h3⟩ := fC s.1 h
  exact ⟨out.map (strip D), (c, s.2), by simp [decorator, h1], by simp [decoratorElems, h2],
    h3.map _⟩

theorem decorator_strict (D : Decoration V) {C : Block K D.Item} {I : C.State → Prop}
    (sC : Strict C I) : Strict (decorator D C) (fun s => I s.1) := by
  intro s ks out ks' s' h he
  simp only [decorator] at he
  cases h1 : C.takeMultiple s.1 ks with
  | panic => simp [h1] at he
  | ok r =>
    obtain ⟨o1, k1, c'⟩ := r
    simp only [h1, Res.ok_bind, Res.pure_eq, Res.ok.injEq, Prod.mk.injEq] at he
    obtain ⟨rfl, rfl, rfl⟩ := he
    have := sC _ _ _ _ _ h h1
    simpa [List.map_map, strip, Function.comp_def] using this

/-! ## Profiler -/

theorem profiler_core {C : Block K V} {I : C.State → Prop} {ec : C.State → List (K × V)} {Pre}
    (hC : Core C I ec Pre) (sC : Fair C I) :
    Core (profiler C) (fun s => I s.1) (fun s => ec s.1) Pre where
  bounded s h := hC.bounded s.1 h
  empty_size s h he := hC.empty_size s.1 h he
  contains s k h := by
    obtain ⟨b, c, h1, h2, h3, h4, h5, h6⟩ := hC.contains s.1 k h
    exact ⟨b, (c, _), by simp only [profiler, h1, Res.ok_bind]; rfl, h2, h3, h4, h5, h6⟩
  take s k h := by
    obtain ⟨o, c, h1, h2, h3, h4⟩ := hC.take s.1 k h
    exact ⟨o, (c, _), by simp only [profiler, h1, Res.ok_bind]; rfl, h2, h3, h4⟩
  takeMultiple s ks h := by
    obtain ⟨out, ks', c, h1, h2, h3, h4⟩ := hC.takeMultiple s.1 ks h
    have hl : out.length ≤ ks.length := by
      have := (sC _ _ _ _ _ h h1).length_le
      simpa using this
    exact ⟨out, ks', (c, _), by simp only [profiler, h1, Res.ok_bind, Res.sub_ok hl]; rfl, h2, h3, h4⟩
  push s l h hp := by
    obtain ⟨out, c, h1, h2, h3, h4⟩ := hC.push s.1 l h hp
    exact ⟨out, (c, _), by simp only [profiler, h1, Res.ok_bind]; rfl, h2, h3, h4⟩
  flush s h := by
    obtain ⟨out, c, h1, h2, h3, h4⟩ := hC.flush s.1 h
    exact ⟨out, (c, _), by simp only [profiler, h1, Res.ok_bind]; rfl, h2, h3, h4⟩

theorem profiler_lawful {C : Block K V} {I : C.State → Prop} {ec : C.State → List (K × V)} {Pre}
    (hC : Lawful C I ec Pre) (sC : Fair C I) :
    Lawful (profiler C) (fun s => I s.1) (fun s => ec s.1) Pre where
  toCore := profiler_core hC.toCore sC
  pop s n h := by
    obtain ⟨out, c, h1, h2, h3, h4, h5⟩ := hC.pop s.1 n h
    have hle : C.size c ≤ C.size s.1 := by
      rcases h5 with h5 | h5
      · omega
      · rw [hC.empty_size c h2 h5]; omega
    exact ⟨out, (c, _), by simp only [profiler, h1, Res.ok_bind, Res.sub_ok hle]; rfl, h2, h3, h4, h5⟩

theorem profiler_flushes {C : Block K V} {I : C.State → Prop} {ec : C.State → List (K × V)}
    (fC : Flushes C I ec) : Flushes (profiler C) (fun s => I s.1) (fun s => ec s.1) := by
  intro s h
  obtain ⟨out, c, h1, h2, h3⟩ := fC s.1 h
  exact ⟨out, (c, _), by simp only [profiler, h1, Res.ok_bind]; rfl, h2, h3⟩

theorem profiler_strict {C : Block K V} {I : C.State → Prop} (sC : Strict C I) :
    Strict (profiler C) (fun s => I s.1) := by
  intro s ks out ks' s' h he
  simp only [profiler] at he
  cases h1 : C.takeMultiple s.1 ks with
  | panic => simp [h1] at he
  | ok r =>
    obtain ⟨o1, k1, c'⟩ := r
    simp only [h1, Res.ok_bind] at he
    cases h2 : Res.sub ks.length o1.length with
    | panic => simp [h2] at he
    | ok m =>
      simp only [h2, Res.ok_bind, Res.pure_eq, Res.ok.injEq, Prod.mk.injEq] at he
      obtain ⟨rfl, rfl, rfl⟩ := he
      exact sC _ _ _ _ _ h h1

end Byoc
