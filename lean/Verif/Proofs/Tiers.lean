import Verif.Proofs.Cells
import Verif.Proofs.Stack

/-!
# Containers in tiers, each ordered before the next
-/

namespace Byoc

variable {K I : Type} [LE I]

/-- `Ord` is kept by the calls of the trait when what is pushed is at most what is stored, and what is
evicted is at least what is kept. -/
structure Aged (C : Block K I) (Inv : C.State → Prop) (elems : C.State → List (K × I))
    (Ord : C.State → Prop) : Prop where
  contains : ∀ s k b s', Inv s → Ord s → C.contains s k = .ok (b, s') → Ord s'
  take : ∀ s k o s', Inv s → Ord s → C.take s k = .ok (o, s') → Ord s'
  takeMultiple : ∀ s ks out ks' s', Inv s → Ord s → C.takeMultiple s ks = .ok (out, ks', s') → Ord s'
  pop : ∀ s n out s', Inv s → Ord s → C.pop s n = .ok (out, s') → Ord s' ∧
    ∀ x ∈ out, ∀ y ∈ elems s', y.2 ≤ x.2
  push : ∀ s l out s', Inv s → Ord s → (∀ x ∈ l, ∀ y ∈ elems s, x.2 ≤ y.2) →
    C.push s l = .ok (out, s') → Ord s' ∧ ∀ x ∈ out, ∀ y ∈ elems s', y.2 ≤ x.2
  flush : ∀ s out s', Inv s → Ord s → C.flush s = .ok (out, s') → Ord s' ∧
    ∀ x ∈ out, ∀ y ∈ elems s', y.2 ≤ x.2

/-- `OrdX k`: in order but for the element with key `k`, which is in the first tier. -/
structure Moves (C : Block K I) (Inv : C.State → Prop) (elems : C.State → List (K × I))
    (Ord : C.State → Prop) (OrdX : K → C.State → Prop) : Prop where
  push : ∀ s x out s', Inv s → Ord s → 0 < C.capacity s → ¬ HasKey (elems s) x.1 →
    C.push s [x] = .ok (out, s') → OrdX x.1 s' ∧
      ∀ z ∈ out, ∀ y ∈ elems s', y.1 ≠ x.1 → y.2 ≤ z.2
  contains : ∀ k s k' b s', Inv s → OrdX k s → C.contains s k' = .ok (b, s') → OrdX k s'

/-- Accesses making the element accessed the least put the container in order. -/
structure Looks (C : Block K I) (op : C.State → K → (I → I) → Res (Option I × C.State))
    (Inv : C.State → Prop) (elems : C.State → List (K × I))
    (Ord : C.State → Prop) (OrdX : K → C.State → Prop) : Prop where
  access : ∀ s k f o s', Inv s → ((elems s).map Prod.fst).Nodup → Ord s →
    (∀ i, ∀ y ∈ elems s, f i ≤ y.2) → op s k f = .ok (o, s') → Ord s'
  accessX : ∀ s k f o s', Inv s → ((elems s).map Prod.fst).Nodup → OrdX k s →
    (∀ i, ∀ y ∈ elems s, y.1 ≠ k → f i ≤ y.2) → op s k f = .ok (o, s') → Ord s'

/-! ## Array -/

section
variable [LinearOrder K] {srt srtS : Sorter (K × I)}

theorem Array.aged (sz : K × I → Nat) (hS : ∀ l, (srt.run l).Pairwise (fun a b => a.2 ≤ b.2))
    (hS' : ∀ l, (srtS.run l).Pairwise (fun a b => a.2 ≤ b.2)) :
    Aged (arrayBlock sz srt srtS) (Array.Inv sz) Array.values (fun _ => True) where
  contains _ _ _ _ _ _ _ := trivial
  take _ _ _ _ _ _ _ := trivial
  takeMultiple _ _ _ _ _ _ _ _ := trivial
  pop s n out s' h _ he := ⟨trivial, fun x hx y hy => (Array.pop_order hS h he).2 y hy x hx⟩
  push s l out s' h _ hl he := by
    refine ⟨trivial, fun x hx y hy => ?_⟩
    rcases (Array.push_order hS hS' h he).2 y hy x hx with ⟨h1, h2⟩ | h1
    · exact hl y h2 x h1
    · exact h1
  flush s out s' h _ he := by
    refine ⟨trivial, fun x hx y hy => ?_⟩
    have he' : Res.ok (Array.flush s) = .ok (out, s') := he
    cases he'
    cases hy

theorem Array.moves (hS : ∀ l, (srt.run l).Pairwise (fun a b => a.2 ≤ b.2)) :
    Moves (arrayBlock (fun _ => 1) srt srtS) (Array.Inv fun _ => 1) Array.values (fun _ => True)
      (fun _ _ => True) where
  contains _ _ _ _ _ _ _ _ := trivial
  push s x out s' h _ hc hk he := by
    refine ⟨trivial, fun z hz y hy hne => ?_⟩
    have he' : Array.push (fun _ => 1) srt srtS s [x] = .ok (out, s') := he
    have hc' : 0 < s.capacity := hc
    rcases Array.push_cases _ srt srtS s [x] h with ⟨h1, h2⟩ | ⟨h1, h2, h3⟩ |
      ⟨h1, p, q, h2, h3, h4, h5, h6⟩ | ⟨h1, h2, o, a', h3, h4⟩
    · rw [h2] at he'; cases he'; cases hz
    · rw [h3] at he'; cases he'
      rcases List.mem_singleton.1 hy with rfl
      exact absurd rfl hne
    · simp only [total_cons, total_nil] at h1; omega
    · rw [h4] at he'; cases he'
      have hy' : y ∈ a'.values := by
        rcases List.mem_append.1 hy with h5 | h5
        · exact h5
        · rw [List.mem_singleton.1 h5] at hne; exact absurd rfl hne
      exact (Array.pop_order hS h h3).2 y hy' z hz

theorem Array.looks (sz : K × I → Nat) (op : Array K I → K → (I → I) → Res (Option I × Array K I)) :
    Looks (arrayBlock sz srt srtS) op (Array.Inv sz) Array.values (fun _ => True) (fun _ _ => True) where
  access _ _ _ _ _ _ _ _ _ _ := trivial
  accessX _ _ _ _ _ _ _ _ _ _ := trivial

end

/-! ## Exclusive -/

section
variable [LinearOrder K] {F B : Block K I} {If : F.State → Prop} {Ib : B.State → Prop}
  {ef : F.State → List (K × I)} {eb : B.State → List (K × I)} {Of : F.State → Prop} {Ob : B.State → Prop}
  {Xf : K → F.State → Prop}

/-- The front is before the back. -/
def TierOrd (ef : F.State → List (K × I)) (eb : B.State → List (K × I)) (Of : F.State → Prop)
    (Ob : B.State → Prop) (s : F.State × B.State) : Prop :=
  Of s.1 ∧ Ob s.2 ∧ ∀ x ∈ ef s.1, ∀ y ∈ eb s.2, x.2 ≤ y.2

/-- The same but for the element with key `k`, in the front. -/
def TierOrdX (ef : F.State → List (K × I)) (eb : B.State → List (K × I)) (Xf : K → F.State → Prop)
    (Ob : B.State → Prop) (k : K) (s : F.State × B.State) : Prop :=
  Xf k s.1 ∧ Ob s.2 ∧ HasKey (ef s.1) k ∧ ∀ x ∈ ef s.1, x.1 ≠ k → ∀ y ∈ eb s.2, x.2 ≤ y.2

omit [LE I] [LinearOrder K] in
theorem mem_of_kept {l l' out : List (K × I)} (hp : (l' ++ out).Perm l) {x} (hx : x ∈ l') : x ∈ l :=
  hp.mem_iff.1 (List.mem_append_left _ hx)

omit [LE I] [LinearOrder K] in
theorem mem_of_out {l l' out : List (K × I)} (hp : (l' ++ out).Perm l) {x} (hx : x ∈ out) : x ∈ l :=
  hp.mem_iff.1 (List.mem_append_right _ hx)

theorem exclusive_aged (hF : Lawful F If ef (fun _ => True)) (hB : Lawful B Ib eb (fun _ => True))
    (aF : Aged F If ef Of) (aB : Aged B Ib eb Ob) :
    Aged (exclusive F B) (fun s => If s.1 ∧ Ib s.2) (exclusiveElems ef eb) (TierOrd ef eb Of Ob) where
  contains s k b s' h ho he := by
    obtain ⟨b1, f, h1, h2, -, -, h5, -⟩ := hF.contains s.1 k h.1
    have of := aF.contains _ _ _ _ h.1 ho.1 h1
    simp only [exclusive, h1, Res.ok_bind] at he
    cases b1 with
    | true =>
      simp only [if_true, Res.pure_eq, Res.ok.injEq] at he
      obtain ⟨-, rfl⟩ := he
      exact ⟨of, ho.2.1, by simpa only [h5] using ho.2.2⟩
    | false =>
      obtain ⟨b2, r, g1, g2, -, -, g5, -⟩ := hB.contains s.2 k h.2
      simp only [Bool.false_eq_true, if_false, g1, Res.ok_bind, Res.pure_eq, Res.ok.injEq] at he
      obtain ⟨-, rfl⟩ := he
      exact ⟨of, aB.contains _ _ _ _ h.2 ho.2.1 g1, by simpa only [h5, g5] using ho.2.2⟩
  take s k o s' h ho he := by
    obtain ⟨o1, f, h1, h2, -, h4⟩ := hF.take s.1 k h.1
    have of := aF.take _ _ _ _ h.1 ho.1 h1
    simp only [exclusive, h1, Res.ok_bind] at he
    cases o1 with
    | some x =>
      simp only [Res.pure_eq, Res.ok.injEq] at he
      obtain ⟨-, rfl⟩ := he
      exact ⟨of, ho.2.1, fun x hx y hy => ho.2.2 x (h4.2.mem_iff.1 (List.mem_cons_of_mem _ hx)) y hy⟩
    | none =>
      obtain ⟨o2, r, g1, g2, -, g4⟩ := hB.take s.2 k h.2
      simp only [g1, Res.ok_bind, Res.pure_eq, Res.ok.injEq] at he
      obtain ⟨-, rfl⟩ := he
      refine ⟨of, aB.take _ _ _ _ h.2 ho.2.1 g1, fun x hx y hy => ho.2.2 x (h4.2.mem_iff.1 hx) y ?_⟩
      cases o with
      | none => exact g4.2.mem_iff.1 hy
      | some z => exact g4.2.mem_iff.1 (List.mem_cons_of_mem _ hy)
  takeMultiple s ks out ks' s' h ho he := by
    obtain ⟨o1, k1, f, h1, h2, -, h4, -⟩ := hF.takeMultiple s.1 (sortKeys ks) h.1
    obtain ⟨o2, k2, r, g1, g2, -, g4, -⟩ :=
      hB.takeMultiple s.2 ((o1.map Prod.fst).foldl removeFound k1) h.2
    simp only [exclusive, h1, g1, Res.ok_bind, Res.pure_eq, Res.ok.injEq] at he
    obtain ⟨-, -, rfl⟩ := he
    exact ⟨aF.takeMultiple _ _ _ _ _ h.1 ho.1 h1, aB.takeMultiple _ _ _ _ _ h.2 ho.2.1 g1,
      fun x hx y hy => ho.2.2 x (mem_of_kept h4 hx) y (mem_of_kept g4 hy)⟩
  pop s n out s' h ho he := by
    obtain ⟨o1, r, g1, g2, -, g4, g5⟩ := hB.pop s.2 n h.2
    obtain ⟨q1, q2⟩ := aB.pop _ _ _ _ h.2 ho.2.1 g1
    simp only [exclusive, g1, Res.ok_bind] at he
    cases hsub : Res.sub (B.size s.2) (B.size r) with
    | panic => rw [hsub] at he; cases he
    | ok ev =>
      rw [hsub] at he
      simp only [Res.ok_bind] at he
      by_cases hlt : ev < n
      · obtain ⟨o2, f, h1, h2, -, h4, -⟩ := hF.pop s.1 (n - ev) h.1
        obtain ⟨p1, p2⟩ := aF.pop _ _ _ _ h.1 ho.1 h1
        simp only [if_pos hlt, h1, Res.ok_bind, Res.pure_eq, Res.ok.injEq] at he
        obtain ⟨rfl, rfl⟩ := he
        have hnil : eb r = [] := by
          rcases g5 with g | g
          · exfalso
            have : ev = B.size s.2 - B.size r := by
              unfold Res.sub at hsub
              split at hsub
              · cases hsub
                rfl
              · cases hsub
            omega
          · exact g
        refine ⟨⟨p1, q1, fun x hx y hy => ?_⟩, fun x hx y hy => ?_⟩
        · simp only [hnil] at hy; cases hy
        · simp only [exclusiveElems, hnil, List.append_nil] at hy
          rcases List.mem_append.1 hx with hx | hx
          · exact ho.2.2 y (mem_of_kept h4 hy) x (mem_of_out g4 hx)
          · exact p2 x hx y hy
      · simp only [if_neg hlt, Res.pure_eq, Res.ok.injEq] at he
        obtain ⟨rfl, rfl⟩ := he
        refine ⟨⟨ho.1, q1, fun x hx y hy => ho.2.2 x hx y (mem_of_kept g4 hy)⟩, fun x hx y hy => ?_⟩
        rcases List.mem_append.1 (show y ∈ ef s.1 ++ eb r from hy) with hy | hy
        · exact ho.2.2 y hy x (mem_of_out g4 hx)
        · exact q2 x hx y hy
  push s l out s' h ho hl he := by
    obtain ⟨o1, f, h1, h2, -, h4⟩ := hF.push s.1 l h.1 trivial
    obtain ⟨o2, r, g1, g2, -, g4⟩ := hB.push s.2 o1 h.2 trivial
    simp only [exclusive, h1, g1, Res.ok_bind, Res.pure_eq, Res.ok.injEq] at he
    obtain ⟨rfl, rfl⟩ := he
    obtain ⟨p1, p2⟩ := aF.push _ _ _ _ h.1 ho.1 (fun x hx y hy => hl x hx y (List.mem_append_left _ hy)) h1
    have first : ∀ x ∈ ef s.1 ++ l, ∀ y ∈ eb s.2, x.2 ≤ y.2 := by
      intro x hx y hy
      rcases List.mem_append.1 hx with hx | hx
      · exact ho.2.2 x hx y hy
      · exact hl x hx y (List.mem_append_right _ hy)
    obtain ⟨q1, q2⟩ := aB.push _ _ _ _ h.2 ho.2.1 (fun x hx y hy => first x (mem_of_out h4 hx) y hy) g1
    have low : ∀ x ∈ ef f, ∀ y ∈ eb s.2 ++ o1, x.2 ≤ y.2 := by
      intro x hx y hy
      rcases List.mem_append.1 hy with hy | hy
      · exact first x (mem_of_kept h4 hx) y hy
      · exact p2 y hy x hx
    refine ⟨⟨p1, q1, fun x hx y hy => low x hx y (mem_of_kept g4 hy)⟩, fun x hx y hy => ?_⟩
    rcases List.mem_append.1 (show y ∈ ef f ++ eb r from hy) with hy | hy
    · exact low y hy x (mem_of_out g4 hx)
    · exact q2 x hx y hy
  flush s out s' h ho he := by
    obtain ⟨o1, b1, g1, g2, -, g4⟩ := hB.flush s.2 h.2
    obtain ⟨o2, f, h1, h2, -, h4⟩ := hF.flush s.1 h.1
    obtain ⟨o3, b2, k1, k2, -, k4⟩ := hB.push b1 o2 g2 trivial
    obtain ⟨o4, b3, m1, m2, -, m4⟩ := hB.flush b2 k2
    simp only [exclusive, h1, g1, k1, m1, Res.ok_bind, Res.pure_eq, Res.ok.injEq] at he
    obtain ⟨rfl, rfl⟩ := he
    obtain ⟨p1, p2⟩ := aF.flush _ _ _ h.1 ho.1 h1
    obtain ⟨q1, q2⟩ := aB.flush _ _ _ h.2 ho.2.1 g1
    obtain ⟨u1, u2⟩ := aB.push _ _ _ _ g2 q1
      (fun x hx y hy => ho.2.2 x (mem_of_out h4 hx) y (mem_of_kept g4 hy)) k1
    obtain ⟨v1, v2⟩ := aB.flush _ _ _ k2 u1 m1
    have low : ∀ x ∈ ef f, ∀ y ∈ eb b1 ++ o2, x.2 ≤ y.2 := by
      intro x hx y hy
      rcases List.mem_append.1 hy with hy | hy
      · exact ho.2.2 x (mem_of_kept h4 hx) y (mem_of_kept g4 hy)
      · exact p2 y hy x hx
    refine ⟨⟨p1, v1, fun x hx y hy => low x hx y (mem_of_kept k4 (mem_of_kept m4 hy))⟩, fun x hx y hy => ?_⟩
    rcases List.mem_append.1 (show y ∈ ef f ++ eb b3 from hy) with hy | hy
    · rcases List.mem_append.1 hx with hx | hx
      · exact ho.2.2 y (mem_of_kept h4 hy) x (mem_of_out g4 hx)
      · rcases List.mem_append.1 hx with hx | hx
        · exact low y hy x (mem_of_out k4 hx)
        · exact low y hy x (mem_of_kept k4 (mem_of_out m4 hx))
    · rcases List.mem_append.1 hx with hx | hx
      · rcases List.mem_append.1 (k4.mem_iff.1 (List.mem_append_left _ (mem_of_kept m4 hy))) with hy | hy
        · exact q2 x hx y hy
        · exact ho.2.2 y (mem_of_out h4 hy) x (mem_of_out g4 hx)
      · rcases List.mem_append.1 hx with hx | hx
        · exact u2 x hx y (mem_of_kept m4 hy)
        · exact v2 x hx y hy

theorem exclusive_moves (hF : Lawful F If ef (fun _ => True)) (hB : Lawful B Ib eb (fun _ => True))
    (hcap : ∀ s, If s → 0 < F.capacity s) (sF : Slots F If ef)
    (mF : Moves F If ef Of Xf) (aB : Aged B Ib eb Ob) :
    Moves (exclusive F B) (fun s => If s.1 ∧ Ib s.2) (exclusiveElems ef eb) (TierOrd ef eb Of Ob)
      (TierOrdX ef eb Xf Ob) where
  push s x out s' h ho hc hk he := by
    obtain ⟨o1, f, h1, h2, -, h4⟩ := hF.push s.1 [x] h.1 trivial
    obtain ⟨o2, r, g1, g2, -, g4⟩ := hB.push s.2 o1 h.2 trivial
    simp only [exclusive, h1, g1, Res.ok_bind, Res.pure_eq, Res.ok.injEq] at he
    obtain ⟨rfl, rfl⟩ := he
    obtain ⟨p1, p2⟩ := mF.push _ _ _ _ h.1 ho.1 (hcap _ h.1)
      (fun hh => hk (hasKey_append.2 (.inl hh))) h1
    obtain ⟨kept, k1, k2⟩ := sF.pushOne _ _ _ _ h.1 (hcap _ h.1) h1
    obtain ⟨q1, q2⟩ := aB.push _ _ _ _ h.2 ho.2.1
      (fun z hz y hy => ho.2.2 z (k2.mem_iff.1 (List.mem_append_right _ hz)) y hy) g1
    have low : ∀ z ∈ ef f, z.1 ≠ x.1 → ∀ y ∈ eb s.2 ++ o1, z.2 ≤ y.2 := by
      intro z hz hne y hy
      rcases List.mem_append.1 hy with hy | hy
      · refine ho.2.2 z ?_ y hy
        rcases List.mem_cons.1 (k1.mem_iff.1 hz) with rfl | hz
        · exact absurd rfl hne
        · exact k2.mem_iff.1 (List.mem_append_left _ hz)
      · exact p2 y hy z hz hne
    refine ⟨⟨p1, q1, ⟨x.2, k1.mem_iff.2 (by simp)⟩,
      fun z hz hne y hy => low z hz hne y (mem_of_kept g4 hy)⟩, fun z hz y hy hne => ?_⟩
    rcases List.mem_append.1 (show y ∈ ef f ++ eb r from hy) with hy | hy
    · exact low y hy hne z (mem_of_out g4 hz)
    · exact q2 z hz y hy
  contains k s k' b s' h ho he := by
    obtain ⟨b1, f, h1, h2, -, -, h5, -⟩ := hF.contains s.1 k' h.1
    have of := mF.contains _ _ _ _ _ h.1 ho.1 h1
    simp only [exclusive, h1, Res.ok_bind] at he
    cases b1 with
    | true =>
      simp only [if_true, Res.pure_eq, Res.ok.injEq] at he
      obtain ⟨-, rfl⟩ := he
      exact ⟨of, ho.2.1, by simpa only [h5] using ho.2.2⟩
    | false =>
      obtain ⟨b2, r, g1, g2, -, -, g5, -⟩ := hB.contains s.2 k' h.2
      simp only [Bool.false_eq_true, if_false, g1, Res.ok_bind, Res.pure_eq, Res.ok.injEq] at he
      obtain ⟨-, rfl⟩ := he
      exact ⟨of, aB.contains _ _ _ _ h.2 ho.2.1 g1, by simpa only [h5, g5] using ho.2.2⟩

omit [LE I] [LinearOrder K] in
theorem key_once {l rest : List (K × I)} {k : K} {v : I} (hp : l.Perm ((k, v) :: rest))
    (hn : (l.map Prod.fst).Nodup) {x} (hx : x ∈ rest) : x.1 ≠ k := by
  have := (hp.map Prod.fst).nodup_iff.1 hn
  rw [List.map_cons, List.nodup_cons] at this
  exact fun h => this.1 (h ▸ (List.mem_map_of_mem hx : x.1 ∈ rest.map Prod.fst))

theorem exclusive_looks (hF : Lawful F If ef (fun _ => True)) (hB : Lawful B Ib eb (fun _ => True))
    (hcap : ∀ s, If s → 0 < F.capacity s) (sF : Slots F If ef)
    {op : F.State → K → (I → I) → Res (Option I × F.State)} (hop : AccessLaw F op If ef (fun _ => True))
    (aF : Aged F If ef Of) (mF : Moves F If ef Of Xf) (lF : Looks F op If ef Of Xf) (aB : Aged B Ib eb Ob) :
    Looks (exclusive F B) (exclusiveAccess F B op) (fun s => If s.1 ∧ Ib s.2) (exclusiveElems ef eb)
      (TierOrd ef eb Of Ob) (TierOrdX ef eb Xf Ob) where
  access s k f o s' h hn ho hf he := by
    have hn' : ((ef s.1).map Prod.fst ++ (eb s.2).map Prod.fst).Nodup := by
      simpa only [exclusiveElems, List.map_append] using hn
    have hnF := (List.nodup_append.1 hn').1
    have hnB := (List.nodup_append.1 hn').2.1
    obtain ⟨b, fr, c1, c2, c3, c4, c5, c6⟩ := hF.contains s.1 k h.1
    have oc := aF.contains _ _ _ _ h.1 ho.1 c1
    simp only [exclusiveAccess, c1, Res.ok_bind] at he
    cases b with
    | true =>
      obtain ⟨o1, f1, u1, u2, u3, u4⟩ := hop fr k f c2 trivial
      simp only [if_true, u1, Res.ok_bind, Res.pure_eq] at he
      obtain ⟨rfl, rfl⟩ := he
      refine ⟨lF.access _ _ _ _ _ c2 (by rw [c5]; exact hnF) oc
        (fun i y hy => hf i y (List.mem_append_left _ (by rwa [c5] at hy))) u1, ho.2.1, fun x hx y hy => ?_⟩
      rw [c5] at u4
      cases o with
      | none => exact ho.2.2 x (u4.2.mem_iff.1 hx) y hy
      | some v =>
        obtain ⟨rest, r1, r2⟩ := u4
        rcases List.mem_cons.1 (r2.mem_iff.1 hx) with rfl | hx
        · exact hf _ _ (List.mem_append_right _ hy)
        · exact ho.2.2 x (r1.mem_iff.2 (List.mem_cons_of_mem _ hx)) y hy
    | false =>
      have hnk : ¬ HasKey (ef fr) k := by rw [c5]; exact fun hc => by simpa using c6.2 hc
      simp only [Bool.false_eq_true, if_false] at he
      obtain ⟨o1, bk, t1, t2, t3, t4⟩ := hB.take s.2 k h.2
      have ob := aB.take _ _ _ _ h.2 ho.2.1 t1
      cases o1 with
      | none =>
        simp only [exclusiveDowngrade, t1, Res.ok_bind, Res.pure_eq, Bool.false_eq_true, if_false] at he
        obtain ⟨-, rfl⟩ := he
        exact ⟨oc, ob, fun x hx y hy => ho.2.2 x (by rwa [c5] at hx) y (t4.2.mem_iff.1 hy)⟩
      | some x =>
        obtain ⟨hx, tp⟩ := t4
        subst hx
        have tb : ∀ y ∈ eb bk, y ∈ eb s.2 := fun y hy => tp.mem_iff.1 (List.mem_cons_of_mem _ hy)
        obtain ⟨o1, f1, p1, p2, p3, p4⟩ := hF.push fr [x] c2 trivial
        obtain ⟨kept, k1, k2⟩ := sF.pushOne _ _ _ _ c2 (hcap fr c2) p1
        rw [c5] at k2
        obtain ⟨m1, m2⟩ := mF.push _ _ _ _ c2 oc (hcap fr c2) hnk p1
        have ko : ∀ z ∈ o1, z ∈ ef s.1 := fun z hz => k2.mem_iff.1 (List.mem_append_right _ hz)
        have kk : ∀ z ∈ kept, z ∈ ef s.1 := fun z hz => k2.mem_iff.1 (List.mem_append_left _ hz)
        -- the back afterwards
        have back : ∃ b3, exclusiveDowngrade F B (fr, s.2) x.1 = .ok (true, (f1, b3)) ∧ Ob b3 ∧
            (∀ y ∈ eb b3, y ∈ eb bk ++ o1) ∨
            exclusiveDowngrade F B (fr, s.2) x.1 = .panic := by
          by_cases hz : o1 = []
          · refine ⟨bk, .inl ⟨?_, ob, fun y hy => by simp [hy]⟩⟩
            simp only [exclusiveDowngrade, t1, Res.ok_bind, p1, hz, if_true, Res.pure_eq]
          · obtain ⟨o2, b2, q1, q2, q3, q4⟩ := hB.push bk o1 t2 trivial
            obtain ⟨w1, -⟩ := aB.push _ _ _ _ t2 ob (fun z hz y hy => ho.2.2 z (ko z hz) y (tb y hy)) q1
            refine ⟨b2, ?_⟩
            by_cases hz2 : o2 = []
            · subst hz2
              refine .inl ⟨?_, w1, fun y hy => q4.mem_iff.1 (List.mem_append_left _ hy)⟩
              simp only [exclusiveDowngrade, t1, Res.ok_bind, p1, hz, if_false, q1, if_true, Res.pure_eq]
            · refine .inr ?_
              simp only [exclusiveDowngrade, t1, Res.ok_bind, p1, hz, if_false, q1, hz2]
        obtain ⟨b3, ⟨d1, d2, d3⟩ | d1⟩ := back
        · obtain ⟨o3, f2, u1, u2, u3, u4⟩ := hop f1 x.1 f p2 trivial
          simp only [d1, Res.ok_bind, if_true, u1, Res.pure_eq] at he
          obtain ⟨rfl, rfl⟩ := he
          have hn1 : ((ef f1).map Prod.fst).Nodup := by
            refine (k1.map Prod.fst).nodup_iff.2 ?_
            rw [List.map_cons, List.nodup_cons]
            refine ⟨fun hm => ?_, nodup_left k2 hnF⟩
            obtain ⟨z, z1, z2⟩ := List.mem_map.1 hm
            exact hnk ⟨z.2, by rw [c5, ← z2]; exact kk z z1⟩
          refine ⟨lF.accessX _ _ _ _ _ p2 hn1 m1 ?_ u1, d2, fun z hz y hy => ?_⟩
          · intro i y hy hne
            refine hf i y (List.mem_append_left _ ?_)
            rcases List.mem_cons.1 (k1.mem_iff.1 hy) with rfl | hy
            · exact absurd rfl hne
            · exact kk y hy
          · have hy' : y ∈ ef s.1 ++ eb s.2 := by
              rcases List.mem_append.1 (d3 y hy) with hy | hy
              · exact List.mem_append_right _ (tb y hy)
              · exact List.mem_append_left _ (ko y hy)
            cases o with
            | none => exact absurd ⟨x.2, k1.mem_iff.2 (by simp)⟩ u4.1
            | some v =>
              obtain ⟨rest, r1, r2⟩ := u4
              rcases List.mem_cons.1 (r2.mem_iff.1 hz) with rfl | hz
              · exact hf _ _ hy'
              · have hz1 : z ∈ ef f1 := r1.mem_iff.2 (List.mem_cons_of_mem _ hz)
                have hne := key_once r1 hn1 hz
                rcases List.mem_append.1 (d3 y hy) with hy | hy
                · refine ho.2.2 z ?_ y (tb y hy)
                  rcases List.mem_cons.1 (k1.mem_iff.1 hz1) with rfl | hz1
                  · exact absurd rfl hne
                  · exact kk z hz1
                · exact m2 y hy z hz1 hne
        · simp only [d1] at he
          cases he
  accessX s k f o s' h hn ho hf he := by
    have hn' : ((ef s.1).map Prod.fst ++ (eb s.2).map Prod.fst).Nodup := by
      simpa only [exclusiveElems, List.map_append] using hn
    have hnF := (List.nodup_append.1 hn').1
    obtain ⟨b, fr, c1, c2, c3, c4, c5, c6⟩ := hF.contains s.1 k h.1
    have oc := mF.contains _ _ _ _ _ h.1 ho.1 c1
    have hb := c6.2 ho.2.2.1
    subst hb
    obtain ⟨o1, f1, u1, u2, u3, u4⟩ := hop fr k f c2 trivial
    simp only [exclusiveAccess, c1, Res.ok_bind, if_true, u1, Res.pure_eq] at he
    obtain ⟨rfl, rfl⟩ := he
    refine ⟨lF.accessX _ _ _ _ _ c2 (by rw [c5]; exact hnF) oc
        (fun i y hy hne => hf i y (List.mem_append_left _ (by rwa [c5] at hy)) hne) u1, ho.2.1,
        fun x hx y hy => ?_⟩
    have hyk : y.1 ≠ k := by
      obtain ⟨v, hv⟩ := ho.2.2.1
      intro hyk
      exact (List.nodup_append.1 hn').2.2 k (List.mem_map_of_mem (f := Prod.fst) hv) y.1 (List.mem_map_of_mem hy)
        hyk.symm
    rw [c5] at u4
    cases o with
    | none => exact absurd ho.2.2.1 u4.1
    | some v =>
      obtain ⟨rest, r1, r2⟩ := u4
      rcases List.mem_cons.1 (r2.mem_iff.1 hx) with rfl | hx
      · exact hf _ _ (List.mem_append_right _ hy) hyk
      · exact ho.2.2.2 x (r1.mem_iff.2 (List.mem_cons_of_mem _ hx)) (key_once r1 hnF hx) y hy

end

/-! ## Fewer states -/

section
variable {C : Block K I} {Inv Inv' : C.State → Prop} {ec : C.State → List (K × I)} {Ord : C.State → Prop}
  {X : K → C.State → Prop}

theorem Aged.mono (h : Aged C Inv ec Ord) (hi : ∀ s, Inv' s → Inv s) : Aged C Inv' ec Ord where
  contains s k b s' hs := h.contains s k b s' (hi s hs)
  take s k b s' hs := h.take s k b s' (hi s hs)
  takeMultiple s k b ks s' hs := h.takeMultiple s k b ks s' (hi s hs)
  pop s k b s' hs := h.pop s k b s' (hi s hs)
  push s k b s' hs := h.push s k b s' (hi s hs)
  flush s b s' hs := h.flush s b s' (hi s hs)

theorem Moves.mono (h : Moves C Inv ec Ord X) (hi : ∀ s, Inv' s → Inv s) : Moves C Inv' ec Ord X where
  push s k b s' hs := h.push s k b s' (hi s hs)
  contains s k b s' c hs := h.contains s k b s' c (hi k hs)

theorem Looks.mono {op : C.State → K → (I → I) → Res (Option I × C.State)} (h : Looks C op Inv ec Ord X)
    (hi : ∀ s, Inv' s → Inv s) : Looks C op Inv' ec Ord X where
  access s k f o s' hs := h.access s k f o s' (hi s hs)
  accessX s k f o s' hs := h.accessX s k f o s' (hi s hs)

end

/-! ## Transparent layers -/

section
variable {C : Block K I} {Inv : C.State → Prop} {ec : C.State → List (K × I)} {Ord : C.State → Prop}
  {X : K → C.State → Prop}

theorem flushStopper_aged (h : Aged C Inv ec Ord) : Aged (flushStopper C) Inv ec Ord where
  contains := h.contains
  take := h.take
  takeMultiple := h.takeMultiple
  pop := h.pop
  push := h.push
  flush s out s' _ ho he := by
    have he' : Res.ok (([] : List (K × I)), s) = .ok (out, s') := he
    cases he'
    exact ⟨ho, by simp⟩

theorem flushStopper_moves (h : Moves C Inv ec Ord X) : Moves (flushStopper C) Inv ec Ord X :=
  ⟨h.push, h.contains⟩

theorem flushStopper_looks {op : C.State → K → (I → I) → Res (Option I × C.State)}
    (h : Looks C op Inv ec Ord X) : Looks (flushStopper C) op Inv ec Ord X := ⟨h.access, h.accessX⟩

omit [LE I] in
theorem bind_eq_ok {α β : Type} {m : Res α} {f : α → Res β} {b : β} (h : (m >>= f) = .ok b) :
    ∃ a, m = .ok a ∧ f a = .ok b := by
  cases m with
  | panic => cases h
  | ok a => exact ⟨a, rfl, h⟩

theorem profiler_aged (h : Aged C Inv ec Ord) :
    Aged (profiler C) (fun s => Inv s.1) (fun s => ec s.1) (fun s => Ord s.1) where
  contains s k b s' hs ho he := by
    obtain ⟨r, h1, h2⟩ := bind_eq_ok he
    cases h2
    exact h.contains _ _ _ _ hs ho h1
  take s k b s' hs ho he := by
    obtain ⟨r, h1, h2⟩ := bind_eq_ok he
    cases h2
    exact h.take _ _ _ _ hs ho h1
  takeMultiple s k b ks' s' hs ho he := by
    obtain ⟨r, h1, h2⟩ := bind_eq_ok he
    obtain ⟨q, -, h3⟩ := bind_eq_ok h2
    cases h3
    exact h.takeMultiple _ _ _ _ _ hs ho h1
  pop s n out s' hs ho he := by
    obtain ⟨r, h1, h2⟩ := bind_eq_ok he
    obtain ⟨q, -, h3⟩ := bind_eq_ok h2
    cases h3
    exact h.pop _ _ _ _ hs ho h1
  push s n out s' hs ho hl he := by
    obtain ⟨r, h1, h2⟩ := bind_eq_ok he
    cases h2
    exact h.push _ _ _ _ hs ho hl h1
  flush s out s' hs ho he := by
    obtain ⟨r, h1, h2⟩ := bind_eq_ok he
    cases h2
    exact h.flush _ _ _ hs ho h1

theorem profiler_moves (h : Moves C Inv ec Ord X) :
    Moves (profiler C) (fun s => Inv s.1) (fun s => ec s.1) (fun s => Ord s.1) (fun k s => X k s.1) where
  push s x out s' hs ho hc hk he := by
    obtain ⟨r, h1, h2⟩ := bind_eq_ok he
    cases h2
    exact h.push _ _ _ _ hs ho hc hk h1
  contains k s k' b s' hs ho he := by
    obtain ⟨r, h1, h2⟩ := bind_eq_ok he
    cases h2
    exact h.contains _ _ _ _ _ hs ho h1

theorem profiler_looks {op : C.State → K → (I → I) → Res (Option I × C.State)}
    {st : C.State × Stats → Option I → C.State → Stats}
    (h : Looks C op Inv ec Ord X) :
    Looks (profiler C) (fun s k f => do
      let (o, c) ← op s.1 k f
      return (o, (c, st s o c)))
      (fun s => Inv s.1) (fun s => ec s.1) (fun s => Ord s.1) (fun k s => X k s.1) where
  access s k f o s' hs hn ho hf he := by
    obtain ⟨r, h1, h2⟩ := bind_eq_ok he
    cases h2
    exact h.access _ _ _ _ _ hs hn ho hf h1
  accessX s k f o s' hs hn ho hf he := by
    obtain ⟨r, h1, h2⟩ := bind_eq_ok he
    cases h2
    exact h.accessX _ _ _ _ _ hs hn ho hf h1

end

/-! ## Stacks -/

namespace Stack

/-- Containers in tiers: `Exclusive`s over `Array`s counting their elements, to any depth on both sides,
possibly with `FlushStopper`s, `Profiler`s and `Sequential`s anywhere. -/
def Tiered : {V : Type} → [LE V] → Stack K V → Prop
  | _, _, array sz srt srtS => (∀ e, sz e = 1) ∧ (∀ l, (srt.run l).Pairwise (fun a b => a.2 ≤ b.2)) ∧
    ∀ l, (srtS.run l).Pairwise (fun a b => a.2 ≤ b.2)
  | _, _, exclusive f b => f.Tiered ∧ b.Tiered
  | _, _, flushStopper c => c.Tiered
  | _, _, sequential c => c.Tiered
  | _, _, profiler c => c.Tiered
  | _, _, _ => False

theorem Tiered.shape {V : Type} (t : Stack K V) : ∀ [LE V], t.Tiered →
    t.WF ∧ t.NoAssociative ∧ t.Counting ∧ t.GetWF ∧ t.fairness.1 ∧ t.fairness.2 ∧ t.sorted := by
  induction t with
  | array sz srt srtS => intro _ h; exact ⟨trivial, trivial, h.1, h.1, trivial, trivial, trivial⟩
  | exclusive f b ihf ihb =>
    intro _ h
    obtain ⟨f1, f2, f3, f4, f5, f6, f7⟩ := ihf h.1
    obtain ⟨b1, b2, b3, b4, b5, b6, b7⟩ := ihb h.2
    exact ⟨⟨f1, b1⟩, ⟨f2, b2⟩, ⟨f3, b3⟩, ⟨f3, b3, f4, b4⟩, ⟨.inl f6, b5⟩, ⟨.inl f6, .inl b6⟩, ⟨f7, b7⟩⟩
  | batch c ih => intro _ h; exact h.elim
  | associative hash c ih => intro _ h; exact h.elim
  | flushStopper c ih => intro _ h; exact ih h
  | sequential c ih => intro _ h; exact ih h
  | dyn ι c ih => intro _ h; exact h.elim
  | decorator D A c ih => intro _ h; exact h.elim
  | profiler c ih =>
    intro _ h
    obtain ⟨f1, f2, f3, f4, f5, f6, f7⟩ := ih h
    exact ⟨⟨f5, f1⟩, f2, f3, f4, f5, f6, f7⟩

variable [LinearOrder K]

/-- Each tier is before the next. -/
def Ordered : {V : Type} → [LE V] → (t : Stack K V) → t.block.State → Prop
  | _, _, exclusive f b, s => TierOrd f.elems b.elems f.Ordered b.Ordered s
  | _, _, flushStopper c, s => c.Ordered s
  | _, _, sequential c, s => c.Ordered s
  | _, _, profiler c, s => c.Ordered s.1
  | _, _, _, _ => True

/-- The same, but for the element with key `k`. -/
def OrderedX (k : K) : {V : Type} → [LE V] → (t : Stack K V) → t.block.State → Prop
  | _, _, exclusive f b, s => TierOrdX f.elems b.elems (fun k s => f.OrderedX k s) b.Ordered k s
  | _, _, flushStopper c, s => c.OrderedX k s
  | _, _, sequential c, s => c.OrderedX k s
  | _, _, profiler c, s => c.OrderedX k s.1
  | _, _, _, _ => True

theorem aged {V : Type} (p : Prop) (t : Stack K V) : ∀ [LE V], t.Tiered →
    Aged t.block (t.Inv p) t.elems t.Ordered := by
  induction t with
  | array sz srt srtS =>
    intro _ h
    exact Array.aged sz h.2.1 h.2.2
  | exclusive f b ihf ihb =>
    intro _ h
    obtain ⟨f1, f2, -⟩ := Tiered.shape f h.1
    obtain ⟨b1, b2, -⟩ := Tiered.shape b h.2
    exact exclusive_aged ((f.lawful p f1 f2).withCapacity (fun n => p → 0 < n)) (b.lawful p b1 b2)
      ((ihf h.1).mono fun s hs => hs.1) (ihb h.2)
  | batch c ih => intro _ h; exact h.elim
  | associative hash c ih => intro _ h; exact h.elim
  | flushStopper c ih => intro _ h; exact flushStopper_aged (ih h)
  | sequential c ih => intro _ h; exact ih h
  | dyn ι c ih => intro _ h; exact h.elim
  | decorator D A c ih => intro _ h; exact h.elim
  | profiler c ih => intro _ h; exact profiler_aged (ih h)

theorem moves {V : Type} (t : Stack K V) : ∀ [LE V], t.Tiered →
    Moves t.block (t.Inv True) t.elems t.Ordered (fun k s => t.OrderedX k s) := by
  induction t with
  | array sz srt srtS =>
    intro _ h
    obtain rfl : sz = fun _ => 1 := funext h.1
    exact Array.moves h.2.1
  | exclusive f b ihf ihb =>
    intro _ h
    obtain ⟨f1, f2, f3, -⟩ := Tiered.shape f h.1
    obtain ⟨b1, b2, -⟩ := Tiered.shape b h.2
    exact exclusive_moves ((f.lawful True f1 f2).withCapacity (fun n => True → 0 < n)) (b.lawful True b1 b2)
      (fun s hs => hs.2 trivial) ((f.slots True f1 f3).mono fun s hs => hs.1)
      ((ihf h.1).mono fun s hs => hs.1) (b.aged True h.2)
  | batch c ih => intro _ h; exact h.elim
  | associative hash c ih => intro _ h; exact h.elim
  | flushStopper c ih => intro _ h; exact flushStopper_moves (ih h)
  | sequential c ih => intro _ h; exact ih h
  | dyn ι c ih => intro _ h; exact h.elim
  | decorator D A c ih => intro _ h; exact h.elim
  | profiler c ih => intro _ h; exact profiler_moves (ih h)

theorem looks {V : Type} (t : Stack K V) : ∀ [LE V], t.Tiered →
    Looks t.block t.gets.get (t.Inv True) t.elems t.Ordered (fun k s => t.OrderedX k s) ∧
    Looks t.block t.gets.getMut (t.Inv True) t.elems t.Ordered (fun k s => t.OrderedX k s) := by
  induction t with
  | array sz srt srtS =>
    intro _ h
    exact ⟨Array.looks sz _, Array.looks sz _⟩
  | exclusive f b ihf ihb =>
    intro _ h
    obtain ⟨f1, f2, f3, f4, -⟩ := Tiered.shape f h.1
    obtain ⟨b1, b2, -⟩ := Tiered.shape b h.2
    have g := (f.getLawful f1 f4).withCapacity (fun n => True → 0 < n)
    have all : ∀ {op : f.block.State → K → _ → Res (Option _ × f.block.State)},
        AccessLaw f.block op (fun s => f.Inv True s ∧ (True → 0 < f.block.capacity s)) f.elems
          (fun _ => True) → Looks f.block op (f.Inv True) f.elems f.Ordered (fun k s => f.OrderedX k s) →
        Looks (Byoc.exclusive f.block b.block) (exclusiveAccess f.block b.block op)
          (fun s => (f.Inv True s.1 ∧ (True → 0 < f.block.capacity s.1)) ∧ b.Inv True s.2)
          (exclusiveElems f.elems b.elems) (TierOrd f.elems b.elems f.Ordered b.Ordered)
          (TierOrdX f.elems b.elems (fun k s => f.OrderedX k s) b.Ordered) := fun hop hl =>
      exclusive_looks ((f.lawful True f1 f2).withCapacity (fun n => True → 0 < n)) (b.lawful True b1 b2)
        (fun s hs => hs.2 trivial) ((f.slots True f1 f3).mono fun s hs => hs.1) hop
        ((f.aged True h.1).mono fun s hs => hs.1)
        ((f.moves h.1).mono fun s hs => hs.1) (hl.mono fun s hs => hs.1) (b.aged True h.2)
    exact ⟨all g.get (ihf h.1).1, all g.getMut (ihf h.1).2⟩
  | batch c ih => intro _ h; exact h.elim
  | associative hash c ih => intro _ h; exact h.elim
  | flushStopper c ih => intro _ h; exact ⟨flushStopper_looks (ih h).1, flushStopper_looks (ih h).2⟩
  | sequential c ih => intro _ h; exact ih h
  | dyn ι c ih => intro _ h; exact h.elim
  | decorator D A c ih => intro _ h; exact h.elim
  | profiler c ih => intro _ h; exact
    ⟨profiler_looks (st := fun s o _ => ({ s.2 with get := s.2.get.add 1 0 } : Stats).hitOrMiss o.isSome) (ih h).1,
     profiler_looks (st := fun s o _ => ({ s.2 with getMut := s.2.getMut.add 1 0 } : Stats).hitOrMiss o.isSome)
      (ih h).2⟩

theorem init_ordered {V : Type} (t : Stack K V) : ∀ [LE V] s, t.Init s → t.Ordered s := by
  induction t with
  | exclusive f b ihf ihb =>
    intro _ s h
    exact ⟨ihf _ h.1, ihb _ h.2, by simp [init_elems f _ h.1]⟩
  | flushStopper c ih => intro _ s h; exact ih s h
  | sequential c ih => intro _ s h; exact ih s h
  | profiler c ih => intro _ s h; exact ih s.1 h.1
  | _ => intro _ s h; trivial

end Stack

namespace Policy

open Policy

section
variable {V T : Type} [LinearOrder K] [LinearOrder T] {D : Decoration V} [LE D.Item] {A : Access D}
  {stamp : D.Item → T} {clock : Nat → T} {read : D.Factory → Nat} {touch : Bool}

omit [LinearOrder K] [LinearOrder T] [LE D.Item] in
theorem wrapAll_stamps (hD : Stamps D stamp clock read) (l : List (K × V)) : ∀ fac,
    ∀ e ∈ (Byoc.wrapAll D fac l).1, ∃ j, read fac ≤ j ∧ stamp e.2 = clock j := by
  induction l with
  | nil => intro fac e he; cases he
  | cons x l ih =>
    intro fac e he
    rcases List.mem_cons.1 (show e ∈ _ :: _ from he) with h | h
    · exact ⟨read fac, le_refl _, by rw [h]; exact (hD.wrap fac x.2).1⟩
    · obtain ⟨j, h1, h2⟩ := ih _ e h
      exact ⟨j, le_trans (by rw [(hD.wrap fac x.2).2]; omega) h1, h2⟩

/-- A session which does not leave an element with an old stamp in the first tier: calls, and, if `touch`,
lookups whose cell is used. -/
def Clean (touch : Bool) : Session K V → Prop
  | .op _ => True
  | .get _ n => touch = true ∧ n ≠ 0
  | .getMut _ us => touch = true ∧ us ≠ []

omit [LinearOrder K] in
/-- One call keeps the order. -/
theorem _root_.Byoc.Aged.step {I : Type} [LE I] {C : Block K I} {Inv : C.State → Prop} {ec : C.State → List (K × I)}
    {Ord : C.State → Prop} (h : Aged C Inv ec Ord) {s : C.State} (hs : Inv s) (ho : Ord s) (o : Op K I)
    (hl : ∀ x ∈ o.given, ∀ y ∈ ec s, x.2 ≤ y.2) {out s'} (he : C.step s o = .ok (out, s')) : Ord s' := by
  cases o with
  | contains k =>
    obtain ⟨r, h1, h2⟩ := bind_eq_ok he
    cases h2
    exact h.contains _ _ _ _ hs ho h1
  | take k =>
    obtain ⟨r, h1, h2⟩ := bind_eq_ok he
    cases h2
    exact h.take _ _ _ _ hs ho h1
  | takeMultiple ks =>
    obtain ⟨r, h1, h2⟩ := bind_eq_ok he
    cases h2
    exact h.takeMultiple _ _ _ _ _ hs ho h1
  | pop n => exact (h.pop _ _ _ _ hs ho he).1
  | push l => exact (h.push _ _ _ _ hs ho hl he).1
  | flush => exact (h.flush _ _ _ hs ho he).1

theorem ordered_session {t : Stack K D.Item} (ht : t.Tiered) (hD : Stamps D stamp clock read)
    (hA : Accesses D A stamp clock read touch) (hle : ∀ a b : D.Item, a ≤ b ↔ stamp b ≤ stamp a)
    (hm : Monotone clock) {s s' : t.block.State × D.Factory} {x : Session K V} {h : List K} {out}
    (hs : t.Inv True s.1) (hn : ((t.elems s.1).map Prod.fst).Nodup)
    (hr : Ranked stamp clock (read s.2) (t.elems s.1) h) (ho : t.Ordered s.1) (hx : Clean touch x)
    (he : Block.session (decoratorCells A (cellsOf t.gets)) s x = .ok (out, s')) : t.Ordered s'.1 := by
  obtain ⟨s, fac⟩ := s
  obtain ⟨w1, w2, w3, w4, -⟩ := Stack.Tiered.shape t ht
  have old : ∀ y ∈ t.elems s, ∃ j, j < read fac ∧ stamp y.2 = clock j := by
    obtain ⟨idx, h1, -⟩ := hr
    exact fun y hy => ⟨idx y.1, (h1 y hy).2.1, (h1 y hy).1⟩
  have fresh : ∀ (i : D.Item) j, read fac ≤ j → stamp i = clock j → ∀ y ∈ t.elems s, i ≤ y.2 := by
    intro i j hj hi y hy
    obtain ⟨j', h1, h2⟩ := old y hy
    rw [hle, hi, h2]
    exact hm (by omega)
  have used : ∀ ts : List (Touch V), touch = true → ts ≠ [] → ∀ i, ∀ y ∈ t.elems s,
      effect (A.touches fac ts) i ≤ y.2 := by
    intro ts ht hts i
    subst ht
    have := List.length_pos_of_ne_nil hts
    exact fresh _ _ (by omega) ((touches_stamp hA ts fac i).2 hts)
  cases x with
  | get k n =>
    obtain ⟨r, h1, h2⟩ := bind_eq_ok he
    cases h2
    obtain ⟨q, h3, h4⟩ := bind_eq_ok h1
    cases h4
    refine (t.looks ht).1.access _ _ _ _ _ hs hn ho (used _ hx.1 ?_) h3
    cases n with
    | zero => exact absurd rfl hx.2
    | succ n => simp [List.replicate_succ]
  | getMut k us =>
    obtain ⟨r, h1, h2⟩ := bind_eq_ok he
    cases h2
    obtain ⟨q, h3, h4⟩ := bind_eq_ok h1
    cases h4
    refine (t.looks ht).2.access _ _ _ _ _ hs hn ho (used _ hx.1 ?_) h3
    simpa using hx.2
  | op o =>
    obtain ⟨out1, s1, h1, -⟩ := (t.lawful True w1 w2).step s hs (wrapOp D fac o) (by cases o <;> trivial)
    have h2 : (decorator D t.block).step (s, fac) o = .ok (out, s') := he
    rw [decorator_step h1] at h2
    cases h2
    refine (t.aged True ht).step hs ho _ ?_ h1
    intro e hm y hy
    rw [wrapOp_given] at hm
    obtain ⟨j, j1, j2⟩ := wrapAll_stamps hD o.given fac e hm
    exact fresh e.2 j j1 j2 y hy

/-- The state after a history of sessions. -/
theorem tiers_history {t : Stack K D.Item} (ht : t.Tiered) (hD : Stamps D stamp clock read)
    (hA : Accesses D A stamp clock read touch) (hle : ∀ a b : D.Item, a ≤ b ↔ stamp b ≤ stamp a)
    (hm : Monotone clock) (xs : List (Session K V)) (hxs : ∀ x ∈ xs, Clean touch x) :
    ∀ (s : t.block.State × D.Factory) (h : List K), t.Inv True s.1 → ((t.elems s.1).map Prod.fst).Nodup →
      Ranked stamp clock (read s.2) (t.elems s.1) h → t.Ordered s.1 →
      Block.FreshSessions (decoratorCells A (cellsOf t.gets)) (Stack.decorator D A t).elems s xs →
      ∃ out s', Block.sessions (decoratorCells A (cellsOf t.gets)) s xs = .ok (out, s') ∧
        t.Inv True s'.1 ∧ ((t.elems s'.1).map Prod.fst).Nodup ∧
        Ranked stamp clock (read s'.2) (t.elems s'.1)
          (h ++ xs.flatMap (usedIn touch (fun _ => true) (fun _ => true))) ∧ t.Ordered s'.1 := by
  obtain ⟨w1, w2, w3, w4, -⟩ := Stack.Tiered.shape t ht
  have hL := t.lawful True w1 w2
  have hG := t.getLawful w1 w4
  induction xs with
  | nil => intro s h h1 h2 h3 h4 _; exact ⟨[], s, rfl, h1, h2, by simpa using h3, h4⟩
  | cons x xs ih =>
    intro s h h1 h2 h3 h4 hf
    have hkeys : (((t.elems s.1).map (strip D)).map Prod.fst) = (t.elems s.1).map Prod.fst := by
      simp [strip, Function.comp_def]
    have hn : ((t.elems s.1).map Prod.fst ++ x.given.map Prod.fst).Nodup := by
      have := hf.1
      rw [List.map_append] at this
      rw [← hkeys]
      exact this
    obtain ⟨o1, s1, e1, i1, -, i3⟩ := ranked_session (C := t.block) (G := cellsOf t.gets)
      (Inv := fun s => t.Inv True s ∧ ((t.elems s).map Prod.fst).Nodup) hD hA
      (Lawful.keeps hL.distinctKeys fun s l hs hn => by
        obtain ⟨out, s', g1, g2, g3, g4⟩ := hL.push s l hs.1 trivial
        exact ⟨out, s', g1, ⟨g2, nodup_left g4 hn⟩, g3, g4⟩) (fun s hs => hs.2)
      hG.get.cellLaw hG.getMut.cellLaw (s := s) (x := x) ⟨h1, h2⟩ (by cases x <;> trivial) hn h3
    have ho := ordered_session ht hD hA hle hm h1 h2 h3 h4 (hxs x (by simp)) e1
    obtain ⟨o2, s2, e2, j⟩ := ih (fun x hx => hxs x (by simp [hx])) s1 _ i1.1 i1.2 i3 ho (hf.2 _ _ e1)
    refine ⟨o1 ++ o2, s2, by simp [Block.sessions, e1, e2], ?_⟩
    simpa using j

end
end Policy

end Byoc
