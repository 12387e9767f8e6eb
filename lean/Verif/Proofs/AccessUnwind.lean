import Verif.Model.AccessUnwind
import Verif.Proofs.StoreUnwind
import Verif.Proofs.UnwindKept
import Verif.Proofs.Stack

/-! # Accesses when the user's functions panic -/

set_option linter.unusedSectionVars false
set_option linter.unusedVariables false

namespace Byoc.Unwind

open M

variable {K V : Type}

/-- From `l` to `l'` (up to the order): nothing, or the value `c.1` of one element with the key `k` is `c.2`. -/
def Changed (k : K) (c : Option (V × V)) (l l' : List (K × V)) : Prop :=
  match c with
  | none => l'.Perm l
  | some x => ∃ rest, l.Perm ((k, x.1) :: rest) ∧ l'.Perm ((k, x.2) :: rest)

/-- From `s` to `s'`: the container is still valid, its capacity has not grown (and is the same, with `q`), its elements are
`Changed`, and some may be lost (none, with `e`). -/
def Used (B : Block K V) (Inv : B.State → Prop) (elems : B.State → List (K × V)) (q e : Prop) (k : K)
    (c : Option (V × V)) (s s' : B.State) : Prop :=
  Inv s' ∧ B.capacity s' ≤ B.capacity s ∧ (q → B.capacity s' = B.capacity s) ∧
    ∃ mid lost, Changed k c (elems s) mid ∧ (elems s' ++ lost).Perm mid ∧ (e → lost = [])

/-- What a use that panics leaves. -/
def Escaped (B : Block K V) (Inv : B.State → Prop) (elems : B.State → List (K × V)) (q e : Prop) (k : K)
    (half : Nat → V → V) (s s' : B.State) : Prop :=
  ∃ c, (∀ x ∈ c, ∃ n, x.2 = half n x.1) ∧ Used B Inv elems q e k c s s'

/-- An access `op`, which is `op0` when nothing panics. -/
structure UseLaw (B : Block K V) (Inv : B.State → Prop) (elems : B.State → List (K × V)) (q e : Prop)
    (Pre : (V → V) → Prop) (op : K → (V → V) → (Nat → V → V) → M B.State (Option V))
    (op0 : B.State → K → (V → V) → Res (Option V × B.State)) : Prop where
  agrees : ∀ s k f half, (op k f half).res s = op0 s k f
  returns : ∀ s k f o s', Inv s → Pre f → op0 s k f = .ok (o, s') →
    Used B Inv elems True True k (o.map fun v => (v, f v)) s s'
  escapes : ∀ s k f half, Inv s → Pre f → (∀ n, Pre (half n)) →
    (op k f half).Esc s (Escaped B Inv elems q e k half s)

namespace Changed

variable {k : K} {c : Option (V × V)} {l l' m m' : List (K × V)}

theorem perm (h : Changed k c l m) (hl : l.Perm l') (hm : m.Perm m') : Changed k c l' m' := by
  cases c with
  | none => exact (hm.symm.trans h).trans hl
  | some x =>
    obtain ⟨r, h1, h2⟩ := h
    exact ⟨r, hl.symm.trans h1, hm.symm.trans h2⟩

theorem append (h : Changed k c l m) (x : List (K × V)) : Changed k c (l ++ x) (m ++ x) := by
  cases c with
  | none => exact h.append_right x
  | some y =>
    obtain ⟨r, h1, h2⟩ := h
    exact ⟨r ++ x, h1.append_right x, h2.append_right x⟩

theorem keys (h : Changed k c l m) : (m.map Prod.fst).Perm (l.map Prod.fst) := by
  cases c with
  | none => exact h.map _
  | some y =>
    obtain ⟨r, h1, h2⟩ := h
    have h1 := h1.map Prod.fst
    have h2 := h2.map Prod.fst
    exact h2.trans h1.symm

theorem strip {D : Decoration V} {c : Option (D.Item × D.Item)} {l m : List (K × D.Item)} (h : Changed k c l m) :
    Changed k (c.map fun x => (D.unwrap x.1, D.unwrap x.2)) (l.map (Byoc.strip D)) (m.map (Byoc.strip D)) := by
  cases c with
  | none => exact h.map _
  | some y =>
    obtain ⟨r, h1, h2⟩ := h
    exact ⟨r.map (Byoc.strip D), by simpa [Byoc.strip] using h1.map (Byoc.strip D),
      by simpa [Byoc.strip] using h2.map (Byoc.strip D)⟩

end Changed

namespace Used

variable {B : Block K V} {Inv : B.State → Prop} {elems : B.State → List (K × V)} {q q' e e' : Prop} {k : K}
  {c : Option (V × V)} {s s' s'' : B.State}

theorem same (h : Inv s) : Used B Inv elems q e k none s s :=
  ⟨h, Nat.le_refl _, fun _ => rfl, elems s, [], List.Perm.refl _, by simp, fun _ => rfl⟩

theorem mono (h : Used B Inv elems q e k c s s') (hq : q' → q) (he : e' → e) :
    Used B Inv elems q' e' k c s s' := by
  obtain ⟨h1, h2, h3, mid, lost, h4, h5, h6⟩ := h
  exact ⟨h1, h2, fun x => h3 (hq x), mid, lost, h4, h5, fun x => h6 (he x)⟩

theorem of_kept {P : K × V → Prop} (h : Kept B Inv elems q [] P s s') (he : e → ∀ x, ¬ P x) :
    Used B Inv elems q e k none s s' := by
  obtain ⟨h1, h2, h3, lost, h4, h5⟩ := h
  refine ⟨h1, h2, h3, elems s, lost, List.Perm.refl _, by simpa using h4, fun x => ?_⟩
  exact List.eq_nil_iff_forall_not_mem.2 fun y hy => he x y (h5 y hy)

theorem after {P : K × V → Prop} (h : Kept B Inv elems q [] P s s') (h' : Used B Inv elems q e k c s' s'')
    (he : e → ∀ x, ¬ P x) : Used B Inv elems q e k c s s'' := by
  obtain ⟨h1, h2, h3, lost, h4, h5⟩ := h
  obtain ⟨g1, g2, g3, mid, lost', g4, g5, g6⟩ := h'
  have h4 : (elems s' ++ lost).Perm (elems s) := by simpa using h4
  refine ⟨g1, g2.trans h2, fun x => (g3 x).trans (h3 x), mid ++ lost, lost' ++ lost,
    (g4.append lost).perm h4 (List.Perm.refl _), ?_, fun x => ?_⟩
  · perms [g5]
  · rw [g6 x, List.nil_append]
    exact List.eq_nil_iff_forall_not_mem.2 fun y hy => he x y (h5 y hy)

/-- Nothing lost: `Kept`. -/
theorem kept (h : Used B Inv elems q e k none s s') : Kept B Inv elems q [] (fun _ => ¬ e) s s' := by
  obtain ⟨h1, h2, h3, mid, lost, h4, h5, h6⟩ := h
  refine ⟨h1, h2, h3, lost, by simpa using h5.trans h4, fun x hx => fun he => ?_⟩
  rw [h6 he] at hx
  simp at hx

end Used

/-! ## Array -/

section ArrayUse

variable [LinearOrder K] {sz : K × V → Nat} {srt srtS : Sorter (K × V)}

theorem array_write {a : Array K V} {i : Nat} {k : K} {v x : V} (h : Array.Inv sz a) (hv : a.values[i]? = some (k, v))
    (hx : sz (k, x) = sz (k, v)) (q e : Prop) :
    Used (arrayBlock sz srt srtS) (Array.Inv sz) Array.values q e k (some (v, x)) a
      { a with values := a.values.set i (k, x) } := by
  obtain ⟨r, p1, p2⟩ := set_perm a.values i (k, v) (k, x) hv
  refine ⟨⟨?_, h.2⟩, Nat.le_refl _, fun _ => rfl, a.values.set i (k, x), [], ⟨r, p1, p2⟩, by simp, fun _ => rfl⟩
  simp only
  rw [total_perm sz p2, total_cons, hx, ← total_cons, ← total_perm sz p1]
  exact h.1

theorem array_useLaw (q e : Prop) :
    UseLaw (arrayBlock sz srt srtS) (Array.Inv sz) Array.values q e (fun f => ∀ k v, sz (k, f v) = sz (k, v))
      arrayUse (fun a k f => .ok (Array.getMut a k f)) where
  agrees (a : Array K V) k f half := by
    show M.res (σ := Array K V) (arrayUse k f half) a = _
    simp only [arrayUse, res_withState, res_bind, res_user, Res.ok_bind, Array.getMut]
    cases hk : findKey a.values k with
    | none => rfl
    | some i =>
      simp only
      cases hv : a.values[i]? with
      | none => rfl
      | some e => rfl
  returns (a : Array K V) k f o a' h hf ho := by
    have ho : Array.getMut a k f = (o, a') := by injection ho
    unfold Array.getMut at ho
    cases hk : findKey a.values k with
    | none =>
      simp only [hk] at ho; cases ho
      exact Used.same h
    | some i =>
      obtain ⟨⟨k', v⟩, h1, h2, -⟩ := findKey_some hk
      simp only at h2
      subst h2
      simp only [hk, h1] at ho
      cases ho
      exact array_write h h1 (hf _ _) True True
  escapes (a : Array K V) k f half h hf hh := by
    show M.Esc (σ := Array K V) (arrayUse k f half) a _
    have h0 : Escaped (arrayBlock sz srt srtS) (Array.Inv sz) Array.values q e k half a a :=
      ⟨none, by simp, Used.same h⟩
    refine esc_withState (esc_user_bind h0 ?_)
    cases hk : findKey a.values k with
    | none => exact esc_pure _ _ _
    | some i =>
      obtain ⟨⟨k', v⟩, h1, h2, -⟩ := findKey_some hk
      simp only at h2
      subst h2
      simp only [h1]
      refine esc_bind (esc_useCell h0 fun n a' ha => ?_) fun _ _ _ => esc_set_bind (esc_pure _ _ _)
      injection ha with ha
      subst ha
      exact ⟨some (v, half n v), fun x hx => ⟨n, by cases hx; rfl⟩, array_write h h1 (hh n _ _) q e⟩

end ArrayUse

/-! ## Exclusive -/

section ExclusiveUse

variable [LinearOrder K] {F B : Block K V} {UF : Unwinding F.State K V} {UB : Unwinding B.State K V}
  {If : F.State → Prop} {Ib : B.State → Prop} {ef : F.State → List (K × V)} {eb : B.State → List (K × V)} {qf qb : Prop}

theorem kept_front {q : Prop} {l P} {s : F.State × B.State} {f' : F.State} (hb : Ib s.2)
    (h : Kept F If ef q l P s.1 f') : Kept (Byoc.exclusive F B) (fun s => If s.1 ∧ Ib s.2)
      (fun s => ef s.1 ++ eb s.2) q l P s (f', s.2) := by
  obtain ⟨h1, h2, h3, lost, h4, h5⟩ := h
  refine ⟨⟨h1, hb⟩, Nat.add_le_add_right h2 _, fun x => ?_, lost, ?_, h5⟩
  · show F.capacity f' + B.capacity s.2 = F.capacity s.1 + B.capacity s.2
    rw [h3 x]
  · show (ef f' ++ eb s.2 ++ lost).Perm (ef s.1 ++ eb s.2 ++ l)
    perms [h4]

theorem kept_back {q : Prop} {l P} {s : F.State × B.State} {b' : B.State} (hf : If s.1)
    (h : Kept B Ib eb q l P s.2 b') : Kept (Byoc.exclusive F B) (fun s => If s.1 ∧ Ib s.2)
      (fun s => ef s.1 ++ eb s.2) q l P s (s.1, b') := by
  obtain ⟨h1, h2, h3, lost, h4, h5⟩ := h
  refine ⟨⟨hf, h1⟩, Nat.add_le_add_left h2 _, fun x => ?_, lost, ?_, h5⟩
  · show F.capacity s.1 + B.capacity b' = F.capacity s.1 + B.capacity s.2
    rw [h3 x]
  · show (ef s.1 ++ eb b' ++ lost).Perm (ef s.1 ++ eb s.2 ++ l)
    perms [h4]

theorem used_front {q e : Prop} {k c} {s : F.State × B.State} {f' : F.State} (hb : Ib s.2)
    (h : Used F If ef q e k c s.1 f') : Used (Byoc.exclusive F B) (fun s => If s.1 ∧ Ib s.2)
      (fun s => ef s.1 ++ eb s.2) q e k c s (f', s.2) := by
  obtain ⟨h1, h2, h3, mid, lost, h4, h5, h6⟩ := h
  refine ⟨⟨h1, hb⟩, Nat.add_le_add_right h2 _, fun x => ?_, mid ++ eb s.2, lost, h4.append _, ?_, h6⟩
  · show F.capacity f' + B.capacity s.2 = F.capacity s.1 + B.capacity s.2
    rw [h3 x]
  · show (ef f' ++ eb s.2 ++ lost).Perm (mid ++ eb s.2)
    perms [h5]

theorem downgrade_agrees (aF : Agrees F UF) (aB : Agrees B UB) (s : F.State × B.State) (k : K) :
    (downgrade UF UB k).res s = exclusiveDowngrade F B s k := by
  simp only [downgrade, exclusiveDowngrade, res_bind, res_snd', aB.take]
  cases ht : B.take s.2 k with
  | panic => rfl
  | ok p =>
    obtain ⟨o, b⟩ := p
    cases o with
    | none => rfl
    | some x =>
      simp only [Res.ok_bind, res_bind, res_fst', aF.push]
      cases hp : F.push s.1 [x] with
      | panic => rfl
      | ok p =>
        obtain ⟨o, f⟩ := p
        simp only [Res.ok_bind]
        split
        · rfl
        · simp only [res_bind, res_snd', aB.push]
          cases hq : B.push b o with
          | panic => rfl
          | ok p =>
            obtain ⟨o, b⟩ := p
            simp only [Res.ok_bind]
            split <;> rfl

theorem downgrade_kept (cF : Core F If ef (fun _ => True)) (cB : Core B Ib eb (fun _ => True))
    (aF : Agrees F UF) (aB : Agrees B UB)
    (hF : Survives F If ef qf UF) (hB : Survives B Ib eb qb UB) (s : F.State × B.State) (k : K) (h : If s.1 ∧ Ib s.2) :
    ((downgrade UF UB k).Esc s (Kept (Byoc.exclusive F B) (fun s => If s.1 ∧ Ib s.2) (fun s => ef s.1 ++ eb s.2)
      (qf ∧ qb) [] (fun _ => True) s)) ∧
    ∀ b s', exclusiveDowngrade F B s k = .ok (b, s') → (If s'.1 ∧ Ib s'.2) ∧ F.capacity s'.1 = F.capacity s.1 ∧
      B.capacity s'.2 = B.capacity s.2 ∧ (ef s'.1 ++ eb s'.2).Perm (ef s.1 ++ eb s.2) := by
  refine ⟨?_, ?_⟩
  · unfold downgrade
    refine esc_bind (σ := F.State × B.State) (esc_snd ((hB.take s.2 k h.2).mono fun b' hb' =>
      (kept_back h.1 hb').mono (fun _ => trivial) fun _ => False.elim)) fun o s1 h1 => ?_
    obtain ⟨g1, g2⟩ := res_snd_ok h1
    obtain ⟨i1, i2, i3, -⟩ := ok_take aB cB h.2 g1
    have e1 : s1 = (s.1, s1.2) := Prod.ext g2 rfl
    have hk1 : Kept (Byoc.exclusive F B) (fun s => If s.1 ∧ Ib s.2) (fun s => ef s.1 ++ eb s.2)
        (qf ∧ qb) [] (fun _ => True) s s1 := by
      rw [e1]
      exact kept_back h.1 (Kept.ok' i1 i2 i3 (by simp))
    cases o with
    | none => exact esc_pure _ _ _
    | some x =>
      have hI1 : If s1.1 := g2 ▸ h.1
      refine esc_bind (σ := F.State × B.State) (esc_fst ((hF.push s1.1 [x] hI1).mono ?_)) fun popped s2 h2 => ?_
      · rintro f' ⟨k1, k2, k3, lost, k4, k5⟩
        refine ⟨⟨k1, i1⟩, ?_, fun y => ?_, lost, ?_, by simp⟩
        · show F.capacity f' + B.capacity s1.2 ≤ F.capacity s.1 + B.capacity s.2
          rw [g2] at k2
          omega
        · show F.capacity f' + B.capacity s1.2 = F.capacity s.1 + B.capacity s.2
          rw [k3 y.1, g2, i2]
        · show (ef f' ++ eb s1.2 ++ lost).Perm (ef s.1 ++ eb s.2 ++ [])
          rw [g2] at k4
          have i3 : (eb s1.2 ++ [x]).Perm (eb s.2) := i3
          perms [k4, i3]
      · obtain ⟨m1, m2⟩ := res_fst_ok h2
        obtain ⟨j1, j2, j3⟩ := ok_push aF cF hI1 m1
        split
        · exact esc_pure _ _ _
        have hI2 : Ib s2.2 := m2 ▸ i1
        have all : ∀ b' lost, Ib b' → B.capacity b' ≤ B.capacity s2.2 → (qf ∧ qb → B.capacity b' = B.capacity s2.2) →
            (eb b' ++ lost).Perm (eb s2.2 ++ popped) →
            Kept (Byoc.exclusive F B) (fun s => If s.1 ∧ Ib s.2) (fun s => ef s.1 ++ eb s.2)
              (qf ∧ qb) [] (fun _ => True) s (s2.1, b') := by
          intro b' lost k1 k2 k3 k4
          refine ⟨⟨j1, k1⟩, ?_, fun y => ?_, lost, ?_, by simp⟩
          · show F.capacity s2.1 + B.capacity b' ≤ F.capacity s.1 + B.capacity s.2
            rw [m2] at k2
            rw [g2] at j2
            omega
          · show F.capacity s2.1 + B.capacity b' = F.capacity s.1 + B.capacity s.2
            rw [k3 y, m2, j2, g2, i2]
          · show (ef s2.1 ++ eb b' ++ lost).Perm (ef s.1 ++ eb s.2 ++ [])
            rw [m2] at k4
            rw [g2] at j3
            have i3 : (eb s1.2 ++ [x]).Perm (eb s.2) := i3
            perms [k4, i3, j3]
        refine esc_bind (σ := F.State × B.State) (esc_snd ((hB.push s2.2 popped hI2).mono ?_)) fun popped2 s3 h3 => ?_
        · rintro b' ⟨k1, k2, k3, lost, k4, k5⟩
          exact all b' lost k1 k2 (fun y => k3 y.2) k4
        · obtain ⟨n1, n2⟩ := res_snd_ok h3
          obtain ⟨l1, l2, l3⟩ := ok_push aB cB hI2 n1
          split
          · exact esc_pure _ _ _
          · intro w w' s' hr
            have : s3 = s' := by
              have hr : (none, w, s3) = ((none : Option Bool), w', s') := hr
              injection hr with _ hr
              injection hr
            rw [← this]
            have e3 : s3 = (s2.1, s3.2) := Prod.ext n2 rfl
            rw [e3]
            exact all s3.2 popped2 l1 l2.le (fun _ => l2) l3
  · intro b s' hd
    obtain ⟨o, b1, t1, t2, t3, t4⟩ := cB.take s.2 k h.2
    simp only [exclusiveDowngrade, t1, Res.ok_bind] at hd
    cases o with
    | none =>
      cases hd
      have t5 := t4.2
      exact ⟨⟨h.1, t2⟩, rfl, t3, t5.append_left _⟩
    | some x =>
      obtain ⟨-, t5⟩ := t4
      obtain ⟨o1, f1, p1, p2, p3, p4⟩ := cF.push s.1 [x] h.1 trivial
      simp only [p1, Res.ok_bind] at hd
      split at hd
      · rename_i ho
        cases hd
        subst ho
        refine ⟨⟨p2, t2⟩, p3, t3, ?_⟩
        simp only
        perms [t5, p4]
      · obtain ⟨o2, b2, q1, q2, q3, q4⟩ := cB.push b1 o1 t2 trivial
        simp only [q1, Res.ok_bind] at hd
        split at hd
        · rename_i ho
          cases hd
          subst ho
          refine ⟨⟨p2, q2⟩, p3, q3.trans t3, ?_⟩
          simp only
          perms [t5, p4, q4]
        · simp at hd

theorem exclusive_useLaw (cF : Core F If ef (fun _ => True)) (cB : Core B Ib eb (fun _ => True))
    (aF : Agrees F UF) (aB : Agrees B UB)
    (hF : Survives F If ef qf UF) (hB : Survives B Ib eb qb UB) {e Pre op op0}
    (hop : UseLaw F If ef qf e Pre op op0) :
    UseLaw (Byoc.exclusive F B) (fun s => If s.1 ∧ Ib s.2) (fun s => ef s.1 ++ eb s.2) (qf ∧ qb) False Pre
      (exclusiveUse UF UB op) (exclusiveAccess F B op0) where
  agrees (s : F.State × B.State) k f half := by
    show M.res (σ := F.State × B.State) (exclusiveUse UF UB op k f half) s = _
    simp only [exclusiveUse, exclusiveAccess, res_bind, res_fst', aF.contains]
    cases hc : F.contains s.1 k with
    | panic => rfl
    | ok p =>
      obtain ⟨b, fr⟩ := p
      cases b
      · simp only [Res.ok_bind, Bool.false_eq_true, if_false, res_bind, downgrade_agrees aF aB]
        cases hd : exclusiveDowngrade F B (fr, s.2) k with
        | panic => rfl
        | ok p =>
          obtain ⟨b, s1⟩ := p
          cases b
          · rfl
          · simp only [Res.ok_bind, if_true, res_fst', hop.agrees]
            rfl
      · simp only [Res.ok_bind, if_true, res_fst', hop.agrees]
        rfl
  returns (s : F.State × B.State) k f o s' h hf ho := by
    obtain ⟨b, fr, c1, c2, c3, c4, c5, c6⟩ := cF.contains s.1 k h.1
    have ho : exclusiveAccess F B op0 s k f = .ok (o, s') := ho
    simp only [exclusiveAccess, c1, Res.ok_bind] at ho
    have hk : Kept (Byoc.exclusive F B) (fun s => If s.1 ∧ Ib s.2) (fun s => ef s.1 ++ eb s.2) True [] (fun _ => False)
        s (fr, s.2) := kept_front h.2 (Kept.losing c2 c3 (c5 ▸ List.Perm.refl _) (by simp))
    -- the access of the front
    have front : ∀ (s1 : F.State × B.State), If s1.1 ∧ Ib s1.2 →
        Kept (Byoc.exclusive F B) (fun s => If s.1 ∧ Ib s.2) (fun s => ef s.1 ++ eb s.2) True [] (fun _ => False) s s1 →
        (op0 s1.1 k f >>= fun p => (.ok (p.1, (p.2, s1.2)) : Res _)) = .ok (o, s') →
        Used (Byoc.exclusive F B) (fun s => If s.1 ∧ Ib s.2) (fun s => ef s.1 ++ eb s.2) True True k
          (o.map fun v => (v, f v)) s s' := by
      intro s1 h1 hk1 hr
      cases hq : op0 s1.1 k f with
      | panic => simp [hq] at hr
      | ok p =>
        simp only [hq, Res.ok_bind, Res.ok.injEq] at hr
        obtain ⟨rfl, rfl⟩ := hr
        exact Used.after hk1 (used_front h1.2 (hop.returns _ _ _ _ _ h1.1 hf hq)) (fun _ _ => id)
    cases b with
    | true => exact front (fr, s.2) ⟨c2, h.2⟩ hk ho
    | false =>
      simp only [Bool.false_eq_true, if_false] at ho
      cases hd : exclusiveDowngrade F B (fr, s.2) k with
      | panic => simp [hd] at ho
      | ok p =>
        obtain ⟨b, s1⟩ := p
        obtain ⟨d1, d2, d3, d4⟩ := (downgrade_kept cF cB aF aB hF hB (fr, s.2) k ⟨c2, h.2⟩).2 _ _ hd
        have hk1 : Kept (Byoc.exclusive F B) (fun s => If s.1 ∧ Ib s.2) (fun s => ef s.1 ++ eb s.2) True []
            (fun _ => False) (fr, s.2) s1 := by
          refine Kept.ok' (lost := []) d1 ?_ (by simpa using d4) (by simp)
          show F.capacity s1.1 + B.capacity s1.2 = F.capacity fr + B.capacity s.2
          rw [d2, d3]
        simp only [hd, Res.ok_bind] at ho
        cases b with
        | true => exact front s1 d1 (hk.trans hk1) ho
        | false =>
          cases ho
          exact Used.of_kept (hk.trans hk1) (fun _ _ => id)
  escapes (s : F.State × B.State) k f half h hf hh := by
    show M.Esc (σ := F.State × B.State) (exclusiveUse UF UB op k f half) s _
    unfold exclusiveUse
    -- the access of the front
    have front : ∀ (s1 : F.State × B.State), If s1.1 ∧ Ib s1.2 →
        Kept (Byoc.exclusive F B) (fun s => If s.1 ∧ Ib s.2) (fun s => ef s.1 ++ eb s.2) (qf ∧ qb) [] (fun _ => True) s s1 →
        M.Esc (σ := F.State × B.State) (fst (op k f half)) s1
          (Escaped (Byoc.exclusive F B) (fun s => If s.1 ∧ Ib s.2) (fun s => ef s.1 ++ eb s.2) (qf ∧ qb) False k half s) := by
      intro s1 h1 hk1
      refine esc_fst ((hop.escapes s1.1 k f half h1.1 hf hh).mono ?_)
      rintro f' ⟨c, hc, hu⟩
      exact ⟨c, hc, Used.after hk1 ((used_front h1.2 hu).mono And.left False.elim) (fun x => x.elim)⟩
    refine esc_bind (σ := F.State × B.State) (esc_fst ((hF.contains s.1 k h.1).mono fun f' hf' =>
      ⟨none, by simp, Used.of_kept ((kept_front h.2 hf').mono (fun _ => trivial) fun _ => id) (fun x => x.elim)⟩)) fun b s1 h1 => ?_
    obtain ⟨g1, g2⟩ := res_fst_ok h1
    have hk := ok_contains aF cF h.1 g1 (qf ∧ qb) (fun _ => True)
    have e1 : s1 = (s1.1, s.2) := Prod.ext rfl g2
    have hI : If s1.1 ∧ Ib s1.2 := ⟨hk.1, g2 ▸ h.2⟩
    have hk1 := kept_front (eb := eb) h.2 hk
    rw [← e1] at hk1
    cases b
    · simp only [Bool.false_eq_true, if_false]
      obtain ⟨d1, d2⟩ := downgrade_kept cF cB aF aB hF hB s1 k hI
      refine esc_bind (σ := F.State × B.State) (d1.mono fun s' hs' =>
        ⟨none, by simp, Used.of_kept (hk1.trans hs') (fun x => x.elim)⟩) fun b s2 h2 => ?_
      rw [downgrade_agrees aF aB] at h2
      obtain ⟨i1, i2, i3, i4⟩ := d2 _ _ h2
      cases b
      · exact esc_pure _ _ _
      · refine front s2 i1 (hk1.trans (Kept.ok' (lost := []) i1 ?_ (by simpa using i4) (by simp)))
        show F.capacity s2.1 + B.capacity s2.2 = F.capacity s1.1 + B.capacity s1.2
        rw [i2, i3]
    · exact front s1 hI hk1

end ExclusiveUse

/-! ## Lists of containers -/

section Lists

variable {C : Block K V} {I : C.State → Prop} {ec : C.State → List (K × V)} {q e : Prop} {Pre : (V → V) → Prop}
  {op : K → (V → V) → (Nat → V → V) → M C.State (Option V)} {op0 : C.State → K → (V → V) → Res (Option V × C.State)}

theorem used_head {k : K} {c} {x x' : C.State} {xs : List C.State} (h : ∀ y ∈ xs, I y) (hu : Used C I ec q e k c x x') :
    Used (Byoc.batch C) (batchInv I) (batchElems ec) q e k c (x :: xs) (x' :: xs) := by
  obtain ⟨h1, h2, h3, mid, lost, h4, h5, h6⟩ := hu
  refine ⟨?_, ?_, fun y => ?_, mid ++ batchElems ec xs, lost, ?_, ?_, h6⟩
  · intro y hy
    rcases List.mem_cons.1 hy with rfl | hy
    · exact h1
    · exact h y hy
  · show ((x' :: xs).map C.capacity).sum ≤ ((x :: xs).map C.capacity).sum
    simpa using h2
  · show ((x' :: xs).map C.capacity).sum = ((x :: xs).map C.capacity).sum
    simpa using h3 y
  · simpa [batchElems_cons] using h4.append _
  · simp only [batchElems_cons]; perms [h5]

theorem used_tail {k : K} {c} {x x' : C.State} {xs xs' : List C.State}
    (hx : I x' ∧ C.capacity x' = C.capacity x ∧ (ec x').Perm (ec x))
    (hu : Used (Byoc.batch C) (batchInv I) (batchElems ec) q e k c xs xs') :
    Used (Byoc.batch C) (batchInv I) (batchElems ec) q e k c (x :: xs) (x' :: xs') := by
  obtain ⟨h1, h2, h3, mid, lost, h4, h5, h6⟩ := hu
  obtain ⟨g1, g2, g3⟩ := hx
  have h2 : (xs'.map C.capacity).sum ≤ (xs.map C.capacity).sum := h2
  have h3 : q → (xs'.map C.capacity).sum = (xs.map C.capacity).sum := h3
  have h5 : (batchElems ec xs' ++ lost).Perm mid := h5
  refine ⟨?_, ?_, fun y => ?_, mid ++ ec x, lost, ?_, ?_, h6⟩
  · intro y hy
    rcases List.mem_cons.1 hy with rfl | hy
    · exact g1
    · exact h1 y hy
  · show ((x' :: xs').map C.capacity).sum ≤ ((x :: xs).map C.capacity).sum
    simp only [List.map_cons, List.sum_cons]
    omega
  · show ((x' :: xs').map C.capacity).sum = ((x :: xs).map C.capacity).sum
    simp only [List.map_cons, List.sum_cons, h3 y, g2]
  · refine (h4.append (ec x)).perm ?_ (List.Perm.refl _)
    simp only [batchElems_cons]
    exact List.perm_append_comm
  · simp only [batchElems_cons]; perms [h5, g3]

/-- A use that found nothing. -/
theorem Used.nothing {B : Block K V} {Inv : B.State → Prop} {elems : B.State → List (K × V)} {k : K} {s s' : B.State}
    (h : Used B Inv elems True True k none s s') :
    Inv s' ∧ B.capacity s' = B.capacity s ∧ (elems s').Perm (elems s) := by
  obtain ⟨h1, h2, h3, mid, lost, h4, h5, h6⟩ := h
  obtain rfl := h6 trivial
  exact ⟨h1, h3 trivial, by simpa using h5.trans h4⟩

theorem res_tail_ok {σ α : Type} {m : M (List σ) α} {c : σ} {cs : List σ} {a s'}
    (h : (tail m).res (c :: cs) = .ok (a, s')) : ∃ cs', m.res cs = .ok (a, cs') ∧ s' = c :: cs' := by
  rw [res_tail] at h
  cases hm : m.res cs with
  | panic => simp [hm] at h
  | ok p => simp [hm] at h; obtain ⟨h1, h2⟩ := h; exact ⟨p.2, by rw [← h1], h2.symm⟩

theorem batch_useLaw (hop : UseLaw C I ec q e Pre op op0) :
    UseLaw (Byoc.batch C) (batchInv I) (batchElems ec) q e Pre
      (fun k f half => withState fun s => batchUse op k f half s) (batchAccess op0) where
  agrees (s : List C.State) k f half := by
    show M.res (σ := List C.State) (withState fun s => batchUse op k f half s) s = batchAccess op0 s k f
    rw [res_withState]
    induction s with
    | nil => rfl
    | cons c cs ih =>
      simp only [batchUse, batchAccess, res_bind, res_head, hop.agrees]
      cases hc : op0 c k f with
      | panic => rfl
      | ok p =>
        obtain ⟨o, c'⟩ := p
        cases o with
        | some v => rfl
        | none =>
          simp only [Res.ok_bind, res_tail, ih]
          rfl
  returns (s : List C.State) k f o s' h hf ho := by
    have ho : batchAccess op0 s k f = .ok (o, s') := ho
    have h : ∀ c ∈ s, I c := h
    show Used (Byoc.batch C) (batchInv I) (batchElems ec) True True k (o.map fun v => (v, f v)) s s'
    induction s generalizing s' with
    | nil =>
      simp only [batchAccess] at ho
      cases ho
      exact Used.same (B := Byoc.batch C) (s := ([] : List C.State)) h
    | cons c cs ih =>
      simp only [batchAccess] at ho
      cases hc : op0 c k f with
      | panic => simp [hc] at ho
      | ok p =>
        obtain ⟨o1, c'⟩ := p
        have hu := hop.returns _ _ _ _ _ (h c (by simp)) hf hc
        simp only [hc, Res.ok_bind] at ho
        cases o1 with
        | some v =>
          cases ho
          exact used_head (fun y hy => h y (by simp [hy])) hu
        | none =>
          cases hr : batchAccess op0 cs k f with
          | panic => simp [hr] at ho
          | ok p =>
            obtain ⟨o2, cs'⟩ := p
            simp only [hr, Res.ok_bind] at ho
            cases ho
            have hcs : ∀ y ∈ cs, I y := fun y hy => h y (by simp [hy])
            exact used_tail hu.nothing (ih cs' hcs hr hr hcs)
  escapes (s : List C.State) k f half h hf hh := by
    have h : ∀ c ∈ s, I c := h
    show M.Esc (σ := List C.State) (withState fun s => batchUse op k f half s) s _
    refine esc_withState ?_
    induction s with
    | nil => exact esc_pure _ _ _
    | cons c cs ih =>
      unfold batchUse
      refine esc_bind (esc_head ((hop.escapes c k f half (h c (by simp)) hf hh).mono ?_)) fun o s1 h1 => ?_
      · rintro c' ⟨d, hd, hu⟩
        exact ⟨d, hd, used_head (fun y hy => h y (by simp [hy])) hu⟩
      · obtain ⟨c', g1, rfl⟩ := res_head_ok h1
        rw [hop.agrees] at g1
        have hu := hop.returns _ _ _ _ _ (h c (by simp)) hf g1
        cases o with
        | some v => exact esc_pure _ _ _
        | none =>
          have hcs : ∀ y ∈ cs, I y := fun y hy => h y (by simp [hy])
          refine esc_tail ((ih hcs hcs).mono ?_)
          rintro cs' ⟨d, hd, hu'⟩
          exact ⟨d, hd, used_tail hu.nothing hu'⟩

theorem used_set {hash : K → Nat} {k : K} {c} {s : List C.State} {x x' : C.State}
    (h : Associative.Inv hash I ec s) (hx : s[hash k % s.length]? = some x) (hu : Used C I ec q e k c x x') :
    Used (Byoc.associative hash C) (Associative.Inv hash I ec) (batchElems ec) q e k c s
      (s.set (hash k % s.length) x') := by
  obtain ⟨h1, h2, h3, mid, lost, h4, h5, h6⟩ := hu
  obtain ⟨hpos, hr⟩ := h
  obtain ⟨hI, hroute⟩ := hr _ _ hx
  obtain ⟨others, q1, q2, q3⟩ := batchElems_set (S := C.State) ec s _ _ hx
  have hcap : ∀ y : C.State, C.capacity y = C.capacity x →
      ((s.set (hash k % s.length) y).map C.capacity).sum = (s.map C.capacity).sum := by
    intro y hy
    obtain ⟨hlt, hxe⟩ := List.getElem?_eq_some_iff.1 hx
    rw [List.map_set, hy, ← hxe, ← List.map_set, List.set_getElem_self]
  refine ⟨⟨by simpa using hpos, ?_⟩, ?_, fun y => hcap x' (h3 y), mid ++ others, lost,
    (h4.append others).perm q1.symm (List.Perm.refl _), ?_, h6⟩
  · intro i d hd
    rw [List.length_set]
    rw [List.getElem?_set] at hd
    split at hd
    · next heq =>
      split at hd
      · simp only [Option.some.injEq] at hd
        subst hd
        refine ⟨h1, fun z hz => ?_⟩
        have hm : z ∈ mid := h5.mem_iff.1 (by simp [hz])
        have hk : z.1 ∈ (ec x).map Prod.fst := h4.keys.mem_iff.1 (List.mem_map_of_mem hm)
        obtain ⟨y, hy, hyz⟩ := List.mem_map.1 hk
        have := hroute y hy
        rw [← hyz]
        omega
      · simp at hd
    · exact hr i d hd
  · show ((s.set (hash k % s.length) x').map C.capacity).sum ≤ (s.map C.capacity).sum
    clear q1 q2 q3 hcap hr hroute
    generalize hash k % s.length = i at hx ⊢
    induction s generalizing i with
    | nil => simp at hx
    | cons d s ih =>
      cases i with
      | zero => simp at hx; subst hx; simpa using h2
      | succ i =>
        simp only [List.getElem?_cons_succ] at hx
        rcases s with _ | ⟨d', s⟩
        · simp at hx
        · have := ih (by simp) i hx
          simpa using this
  · have := q3 x'
    perms [this, h5]

theorem associative_useLaw (hash : K → Nat) (hop : UseLaw C I ec q e Pre op op0) :
    UseLaw (Byoc.associative hash C) (Associative.Inv hash I ec) (batchElems ec) q e Pre
      (associativeUse hash op) (associativeAccess hash op0) where
  agrees (s : List C.State) k f half := by
    show M.res (σ := List C.State) (associativeUse hash op k f half) s = associativeAccess hash op0 s k f
    simp only [associativeUse, associativeAccess, res_withState, res_bind, res_user, Res.ok_bind, res_ofRes]
    cases hi : Associative.set hash s.length k with
    | panic => rfl
    | ok i =>
      simp only [Res.ok_bind, res_atIndex]
      cases hc : s[i]? with
      | none => rfl
      | some c =>
        simp only [Res.unwrap_some, Res.ok_bind, hop.agrees]
        rfl
  returns (s : List C.State) k f o s' h hf ho := by
    have ho : associativeAccess hash op0 s k f = .ok (o, s') := ho
    have h : Associative.Inv hash I ec s := h
    have hpos := h.1
    have hlt : hash k % s.length < s.length := Nat.mod_lt _ hpos
    have hget : s[hash k % s.length]? = some s[hash k % s.length] := List.getElem?_eq_getElem hlt
    simp only [associativeAccess, Associative.set, Nat.ne_of_gt hpos, if_false, Res.ok_bind, hget, Res.unwrap_some] at ho
    cases hc : op0 s[hash k % s.length] k f with
    | panic => simp [hc] at ho
    | ok p =>
      obtain ⟨o1, c'⟩ := p
      simp only [hc, Res.ok_bind] at ho
      cases ho
      exact used_set h hget (hop.returns _ _ _ _ _ (h.2 _ _ hget).1 hf hc)
  escapes (s : List C.State) k f half h hf hh := by
    have h : Associative.Inv hash I ec s := h
    show M.Esc (σ := List C.State) (associativeUse hash op k f half) s _
    have h0 : Escaped (Byoc.associative hash C) (Associative.Inv hash I ec) (batchElems ec) q e k half s s :=
      ⟨none, by simp, Used.same (B := Byoc.associative hash C) (s := s) h⟩
    refine esc_withState (esc_user_bind h0 (esc_ofRes_bind h0 fun i hi => ?_))
    have hpos := h.1
    simp only [Associative.set, Nat.ne_of_gt hpos, if_false] at hi
    cases hi
    refine esc_atIndex h0 fun c hc => (hop.escapes c k f half (h.2 _ _ hc).1 hf hh).mono ?_
    rintro c' ⟨d, hd, hu⟩
    exact ⟨d, hd, used_set h hc hu⟩

end Lists

/-! ## FlushStopper, dynamic containers, Decorator, Profiler -/

section Wrappers

variable {C : Block K V} {I : C.State → Prop} {ec : C.State → List (K × V)} {q e : Prop} {Pre : (V → V) → Prop}
  {op : K → (V → V) → (Nat → V → V) → M C.State (Option V)} {op0 : C.State → K → (V → V) → Res (Option V × C.State)}

theorem flushStopper_useLaw (hop : UseLaw C I ec q e Pre op op0) : UseLaw (Byoc.flushStopper C) I ec q e Pre op op0 :=
  ⟨hop.agrees, hop.returns, hop.escapes⟩

theorem viaDefault_useLaw (hop : UseLaw C I ec q e Pre op op0) : UseLaw (Byoc.viaDefault C) I ec q e Pre op op0 :=
  ⟨hop.agrees, hop.returns, hop.escapes⟩

theorem anyOf_useLaw {ι : Type} {B : ι → Block K V} {I : ∀ i, (B i).State → Prop}
    {e : ∀ i, (B i).State → List (K × V)} {q n : Prop} {Pre : (V → V) → Prop}
    {op : ∀ i, K → (V → V) → (Nat → V → V) → M (B i).State (Option V)}
    {op0 : ∀ i, (B i).State → K → (V → V) → Res (Option V × (B i).State)}
    (hop : ∀ i, UseLaw (B i) (I i) (e i) q n Pre (op i) (op0 i)) :
    UseLaw (Byoc.anyOf B) (fun s => I s.1 s.2) (fun s => e s.1 s.2) q n Pre
      (fun k f half => sigma fun i => op i k f half)
      (fun s k f => do let (o, c) ← op0 s.1 s.2 k f; return (o, ⟨s.1, c⟩)) where
  agrees (s : Σ i, (B i).State) k f half := by
    show M.res (σ := Σ i, (B i).State) (sigma fun i => op i k f half) s = _
    simp only [res_sigma, (hop _).agrees]; rfl
  returns (s : Σ i, (B i).State) k f o s' h hf ho := by
    cases hc : op0 s.1 s.2 k f with
    | panic => simp [hc] at ho
    | ok p =>
      obtain ⟨o1, c'⟩ := p
      simp only [hc, Res.ok_bind] at ho
      cases ho
      exact (hop s.1).returns _ _ _ _ _ h hf hc
  escapes (s : Σ i, (B i).State) k f half h hf hh := by
    show M.Esc (σ := Σ i, (B i).State) (sigma fun i => op i k f half) s _
    exact esc_sigma (((hop s.1).escapes s.2 k f half h hf hh).mono fun c' h => h)

theorem used_decorator {D : Decoration V} {C : Block K D.Item} {I : C.State → Prop} {ec : C.State → List (K × D.Item)}
    {q e : Prop} {k : K} {c : Option (D.Item × D.Item)} {s : C.State × D.Factory} {s' : C.State} (fac : D.Factory)
    (hu : Used C I ec q e k c s.1 s') :
    Used (Byoc.decorator D C) (fun s => I s.1) (decoratorElems D ec) q e k
      (c.map fun x => (D.unwrap x.1, D.unwrap x.2)) s (s', fac) := by
  obtain ⟨h1, h2, h3, mid, lost, h4, h5, h6⟩ := hu
  refine ⟨h1, h2, h3, mid.map (Byoc.strip D), lost.map (Byoc.strip D), h4.strip, ?_, fun x => by rw [h6 x]; rfl⟩
  have := h5.map (Byoc.strip D)
  simpa [decoratorElems] using this

theorem decorator_useLaw {D : Decoration V} {A : Access D} (hA : A.Faithful) {C : Block K D.Item} {I : C.State → Prop}
    {ec : C.State → List (K × D.Item)} {q e : Prop} {Pre : (D.Item → D.Item) → Prop}
    {op : K → (D.Item → D.Item) → (Nat → D.Item → D.Item) → M C.State (Option D.Item)}
    {op0 : C.State → K → (D.Item → D.Item) → Res (Option D.Item × C.State)} (hop : UseLaw C I ec q e Pre op op0) :
    UseLaw (Byoc.decorator D C) (fun s => I s.1) (decoratorElems D ec) q e (fun f => ∀ fac, Pre (A.access fac f))
      (decoratorUse A op) (fun s k f => do
        let (o, c) ← op0 s.1 k (A.access s.2 f)
        return (o.map D.unwrap, (c, if o.isSome then A.tick s.2 else s.2))) where
  agrees (s : C.State × D.Factory) k f half := by
    show M.res (σ := C.State × D.Factory) (decoratorUse A op k f half) s = _
    simp only [decoratorUse, res_withState, res_bind, res_fst', hop.agrees]
    cases hc : op0 s.1 k (A.access s.2 f) <;> rfl
  returns (s : C.State × D.Factory) k f o s' h hf ho := by
    cases hc : op0 s.1 k (A.access s.2 f) with
    | panic => simp [hc] at ho
    | ok p =>
      obtain ⟨o1, c'⟩ := p
      simp only [hc, Res.ok_bind] at ho
      cases ho
      have := used_decorator (s := s) (if o1.isSome then A.tick s.2 else s.2)
        (hop.returns _ _ _ _ _ h (hf s.2) hc)
      cases o1 with
      | none => exact this
      | some i =>
        simp only [Option.map_some, hA s.2 f i] at this ⊢
        exact this
  escapes (s : C.State × D.Factory) k f half h hf hh := by
    show M.Esc (σ := C.State × D.Factory) (decoratorUse A op k f half) s _
    refine esc_withState (esc_bind (esc_fst ((hop.escapes s.1 k (A.access s.2 f) (fun n => A.access s.2 (half n)) h (hf s.2)
      fun n => hh n s.2).mono ?_)) fun _ _ _ => esc_withState (esc_set_bind (esc_pure _ _ _)))
    rintro c' ⟨d, hd, hu⟩
    refine ⟨d.map fun x => (D.unwrap x.1, D.unwrap x.2), ?_, used_decorator (s := s) s.2 hu⟩
    intro x hx
    cases d with
    | none => simp at hx
    | some y =>
      obtain ⟨n, hn⟩ := hd y rfl
      cases hx
      exact ⟨n, (congrArg D.unwrap hn).trans (hA s.2 (half n) y.1)⟩

theorem profiler_useLaw (hop : UseLaw C I ec q e Pre op op0) (count : Stats → Stats) :
    UseLaw (Byoc.profiler C) (fun s => I s.1) (fun s => ec s.1) q e Pre (profilerUse count op)
      (fun s k f => do
        let (o, c) ← op0 s.1 k f
        return (o, (c, (count s.2).hitOrMiss o.isSome))) where
  agrees (s : C.State × Stats) k f half := by
    show M.res (σ := C.State × Stats) (profilerUse count op k f half) s = _
    simp only [profilerUse, res_bind, res_fst', hop.agrees]
    cases hc : op0 s.1 k f <;> rfl
  returns (s : C.State × Stats) k f o s' h hf ho := by
    cases hc : op0 s.1 k f with
    | panic => simp [hc] at ho
    | ok p =>
      obtain ⟨o1, c'⟩ := p
      simp only [hc, Res.ok_bind] at ho
      cases ho
      exact hop.returns _ _ _ _ _ h hf hc
  escapes (s : C.State × Stats) k f half h hf hh :=
    esc_bind (σ := C.State × Stats) (esc_fst ((hop.escapes s.1 k f half h hf hh).mono fun _ h => h))
      fun _ _ _ => esc_withState (σ := C.State × Stats) (esc_set_bind (esc_pure _ _ _))

theorem UseLaw.mono {q' e' : Prop} {Pre' : (V → V) → Prop} (hop : UseLaw C I ec q e Pre op op0) (hq : q' → q)
    (he : e' → e) (hp : ∀ f, Pre' f → Pre f) : UseLaw C I ec q' e' Pre' op op0 where
  agrees := hop.agrees
  returns s k f o s' h hf := hop.returns s k f o s' h (hp f hf)
  escapes s k f half h hf hh := (hop.escapes s k f half h (hp f hf) fun n => hp _ (hh n)).mono
    fun _ ⟨c, h1, h2⟩ => ⟨c, h1, h2.mono hq he⟩

/-- With room, when the capacity stays the same. -/
theorem UseLaw.room {p : Prop} (hop : UseLaw C I ec q e Pre op op0) (hq : p → q) :
    UseLaw C (fun s => I s ∧ (p → 0 < C.capacity s)) ec q e Pre op op0 where
  agrees := hop.agrees
  returns s k f o s' h hf ho := by
    obtain ⟨h1, h2, h3, h4⟩ := hop.returns s k f o s' h.1 hf ho
    exact ⟨⟨h1, fun x => by rw [h3 trivial]; exact h.2 x⟩, h2, h3, h4⟩
  escapes s k f half h hf hh := (hop.escapes s k f half h.1 hf hh).mono
    fun _ ⟨c, h1, h2, h3, h4, h5⟩ => ⟨c, h1, ⟨h2, fun x => by rw [h4 (hq x)]; exact h.2 x⟩, h3, h4, h5⟩

theorem Survives.room {p : Prop} {U : Unwinding C.State K V} (hC : Survives C I ec q U) (hq : p → q) :
    Survives C (fun s => I s ∧ (p → 0 < C.capacity s)) ec q U := by
  have lift : ∀ {q : Prop} {l P s c}, (p → q) → (p → 0 < C.capacity s) → Kept C I ec q l P s c →
      Kept C (fun s => I s ∧ (p → 0 < C.capacity s)) ec q l P s c :=
    fun hq hs h => ⟨⟨h.1, fun x => by rw [h.2.2.1 (hq x)]; exact hs x⟩, h.2⟩
  exact {
    contains := fun s k h => (hC.contains s k h.1).mono fun _ => lift (fun _ => trivial) h.2
    take := fun s k h => (hC.take s k h.1).mono fun _ => lift (fun _ => trivial) h.2
    takeMultiple := fun s ks h => (hC.takeMultiple s ks h.1).mono fun _ => lift (fun _ => trivial) h.2
    pop := fun s n h => (hC.pop s n h.1).mono fun _ => lift hq h.2
    push := fun s l h => (hC.push s l h.1).mono fun _ => lift hq h.2
    flush := fun s h => (hC.flush s h.1).mono fun _ => lift hq h.2 }

end Wrappers

/-! ## Any nesting -/

/-- As `stack_survives`, with room in the fronts (and no `Batch`). -/
theorem stack_survives_room [LinearOrder K] {left : (W : Type) → Nat → List (K × W) → List (K × W)}
    (hl : ∀ W n l, (left W n l).Perm l) {p : Prop} {V : Type} (t : Stack K V) : t.WF → (p → NoBatch t) →
    Survives t.block (t.Inv p) t.elems (NoBatch t) (stack left t) := by
  induction t with
  | array sz srt srtS => intro _ _; exact array_survives (hl _) _
  | exclusive f b ihf ihb =>
    intro h hp
    exact exclusive_survives (stack_agrees left f) (stack_agrees left b)
      ((f.core p h.1).withCapacity fun n => p → 0 < n) (b.core p h.2)
      ((f.popOk p h.1).withCapacity fun n => p → 0 < n) (b.popOk p h.2)
      ((ihf h.1 fun x => (hp x).1).room fun x => (hp x).1) (ihb h.2 fun x => (hp x).2)
  | batch c ih =>
    intro h hp
    exact batch_survives (stack_agrees left c) (c.core p h) (c.popOk p h) (ih h fun x => (hp x).elim)
  | associative hash c ih =>
    intro h hp
    exact associative_survives (stack_agrees left c) (c.core p h) (c.popOk p h) (ih h hp) hash
  | flushStopper c ih => intro h hp; exact flushStopper_survives (ih h hp)
  | sequential c ih => exact ih
  | dyn ι c ih =>
    intro h hp
    exact viaDefault_survives (anyOf_agrees fun i => stack_agrees left (c i))
      (anyOf_core fun i => (c i).core p (h i)) (anyOf_survives fun i => ih i (h i) fun x => hp x i)
  | decorator D A c ih => intro h hp; exact decorator_survives D h.1 (ih h.2 hp)
  | profiler c ih =>
    intro h hp
    exact profiler_survives (stack_agrees left c) (c.core p h.2) (c.popOk p h.2) (ih h.2 hp)

/-- No `Exclusive` inside. -/
def NoExclusive : {V : Type} → Stack K V → Prop
  | _, .array _ _ _ => True
  | _, .exclusive _ _ => False
  | _, .batch c => NoExclusive c
  | _, .associative _ c => NoExclusive c
  | _, .flushStopper c => NoExclusive c
  | _, .sequential c => NoExclusive c
  | _, .dyn _ c => ∀ i, NoExclusive (c i)
  | _, .decorator _ _ c => NoExclusive c
  | _, .profiler c => NoExclusive c

/-- Accesses of decorated values read and write the value (Policies: `Lru`, `Lrfu` and `Fifo` do). -/
def Faithful : {V : Type} → Stack K V → Prop
  | _, .array _ _ _ => True
  | _, .exclusive f b => Faithful f ∧ Faithful b
  | _, .batch c => Faithful c
  | _, .associative _ c => Faithful c
  | _, .flushStopper c => Faithful c
  | _, .sequential c => Faithful c
  | _, .dyn _ c => ∀ i, Faithful (c i)
  | _, .decorator _ A c => A.Faithful ∧ Faithful c
  | _, .profiler c => Faithful c

/-- Changing a value by `f` does not change the size of an element. -/
def SameSize : {V : Type} → Stack K V → (V → V) → Prop
  | _, .array sz _ _, f => ∀ k v, sz (k, f v) = sz (k, v)
  | _, .exclusive t _, f => SameSize t f
  | _, .batch c, f => SameSize c f
  | _, .associative _ c, f => SameSize c f
  | _, .flushStopper c, f => SameSize c f
  | _, .sequential c, f => SameSize c f
  | _, .dyn _ c, f => ∀ i, SameSize (c i) f
  | _, .decorator _ A c, f => ∀ fac, SameSize c (A.access fac f)
  | _, .profiler c, f => SameSize c f

theorem stack_useLaw [LinearOrder K] {left : (W : Type) → Nat → List (K × W) → List (K × W)}
    (hl : ∀ W n l, (left W n l).Perm l) {p : Prop} {V : Type} (t : Stack K V) : t.WF → Faithful t → (p → NoBatch t) →
    UseLaw t.block (t.Inv p) t.elems (NoBatch t) (NoExclusive t) (SameSize t) (stackUsing left t).get t.gets.get ∧
    UseLaw t.block (t.Inv p) t.elems (NoBatch t) (NoExclusive t) (SameSize t) (stackUsing left t).getMut t.gets.getMut := by
  induction t with
  | array sz srt srtS => intro _ _ _; exact ⟨array_useLaw _ _, array_useLaw _ _⟩
  | exclusive f b ihf ihb =>
    intro h n hp
    obtain ⟨h1, h2⟩ := ihf h.1 n.1 fun x => (hp x).1
    have sF := (stack_survives_room hl f h.1 fun x => (hp x).1).room fun x => (hp x).1
    have sB := stack_survives_room hl b h.2 fun x => (hp x).2
    have cF := (f.core p h.1).withCapacity fun n => p → 0 < n
    exact ⟨exclusive_useLaw cF (b.core p h.2) (stack_agrees left f) (stack_agrees left b) sF sB (h1.room fun x => (hp x).1),
      exclusive_useLaw cF (b.core p h.2) (stack_agrees left f) (stack_agrees left b) sF sB (h2.room fun x => (hp x).1)⟩
  | batch c ih =>
    intro h n hp
    obtain ⟨h1, h2⟩ := ih h n fun x => (hp x).elim
    exact ⟨(batch_useLaw h1).mono False.elim id fun _ => id, (batch_useLaw h2).mono False.elim id fun _ => id⟩
  | associative hash c ih =>
    intro h n hp
    obtain ⟨h1, h2⟩ := ih h n hp
    exact ⟨associative_useLaw hash h1, associative_useLaw hash h2⟩
  | flushStopper c ih =>
    intro h n hp
    exact ⟨flushStopper_useLaw (ih h n hp).1, flushStopper_useLaw (ih h n hp).2⟩
  | sequential c ih => exact ih
  | dyn ι c ih =>
    intro h n hp
    exact ⟨viaDefault_useLaw (anyOf_useLaw fun i => ((ih i (h i) (n i) fun x => hp x i).1.mono (fun h => h i)
        (fun h => h i) fun _ h => h i)),
      viaDefault_useLaw (anyOf_useLaw fun i => ((ih i (h i) (n i) fun x => hp x i).2.mono (fun h => h i)
        (fun h => h i) fun _ h => h i))⟩
  | decorator D A c ih =>
    intro h n hp
    obtain ⟨h1, h2⟩ := ih h.2 n.2 hp
    exact ⟨decorator_useLaw n.1 h1, decorator_useLaw n.1 h2⟩
  | profiler c ih =>
    intro h n hp
    obtain ⟨h1, h2⟩ := ih h.2 n hp
    exact ⟨profiler_useLaw h1 fun st => { st with get := st.get.add 1 0 },
      profiler_useLaw h2 fun st => { st with getMut := st.getMut.add 1 0 }⟩

end Byoc.Unwind
