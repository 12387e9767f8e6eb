import Verif.Proofs.Unwind

/-! # What a container keeps when a call panics -/

set_option linter.unusedSectionVars false
set_option linter.unusedVariables false

namespace Byoc.Unwind

open M

variable {K V : Type}

/-- From `s` to `s'`: the container is still valid, its capacity has not grown (and is the same, with `q`), and its
elements are those of `s` and the ones `given`, but for some, which satisfy `P`. -/
def Kept (B : Block K V) (Inv : B.State → Prop) (elems : B.State → List (K × V)) (q : Prop)
    (given : List (K × V)) (P : K × V → Prop) (s s' : B.State) : Prop :=
  Inv s' ∧ B.capacity s' ≤ B.capacity s ∧ (q → B.capacity s' = B.capacity s) ∧
    ∃ lost, (elems s' ++ lost).Perm (elems s ++ given) ∧ ∀ e ∈ lost, P e

/-- What the methods keep when they panic. -/
structure Survives (B : Block K V) (Inv : B.State → Prop) (elems : B.State → List (K × V)) (q : Prop)
    (U : Unwinding B.State K V) : Prop where
  contains : ∀ s k, Inv s → (U.contains k).Esc s (Kept B Inv elems True [] (fun _ => False) s)
  take : ∀ s k, Inv s → (U.take k).Esc s (Kept B Inv elems True [] (fun _ => False) s)
  takeMultiple : ∀ s ks, Inv s →
    (U.takeMultiple ks).Esc s (Kept B Inv elems True [] (fun e => e.1 ∈ ks) s)
  pop : ∀ s n, Inv s → (U.pop n).Esc s (Kept B Inv elems q [] (fun _ => True) s)
  push : ∀ s l, Inv s → (U.push l).Esc s (Kept B Inv elems q l (fun _ => True) s)
  flush : ∀ s, Inv s → U.flush.Esc s (Kept B Inv elems q [] (fun _ => True) s)

namespace Kept

variable {B : Block K V} {Inv : B.State → Prop} {elems : B.State → List (K × V)} {q q' : Prop}
  {l : List (K × V)} {P P' : K × V → Prop} {s s' s'' : B.State}

theorem refl (h : Inv s) : Kept B Inv elems q [] P s s :=
  ⟨h, Nat.le_refl _, fun _ => rfl, [], by simp, by simp⟩

/-- Same elements, and what was given is lost. -/
theorem losing (h : Inv s') (hc : B.capacity s' = B.capacity s) (hp : (elems s').Perm (elems s))
    (hP : ∀ e ∈ l, P e) : Kept B Inv elems q l P s s' :=
  ⟨h, hc.le, fun _ => hc, l, hp.append_right l, hP⟩

theorem ok (h : Inv s') (hc : B.capacity s' = B.capacity s) {lost}
    (hp : (elems s' ++ lost).Perm (elems s ++ l)) (hP : ∀ e ∈ lost, P e) :
    Kept B Inv elems q l P s s' := ⟨h, hc.le, fun _ => hc, lost, hp, hP⟩

theorem ok' (h : Inv s') (hc : B.capacity s' = B.capacity s) {lost}
    (hp : (elems s' ++ lost).Perm (elems s)) (hP : ∀ e ∈ lost, P e) :
    Kept B Inv elems q [] P s s' := ok h hc (by simpa using hp) hP

theorem mono (h : Kept B Inv elems q l P s s') (hq : q' → q) (hP : ∀ e, P e → P' e) :
    Kept B Inv elems q' l P' s s' := by
  obtain ⟨h1, h2, h3, lost, h4, h5⟩ := h
  exact ⟨h1, h2, fun x => h3 (hq x), lost, h4, fun e he => hP e (h5 e he)⟩

theorem trans (h : Kept B Inv elems q l P s s') (h' : Kept B Inv elems q [] P s' s'') :
    Kept B Inv elems q l P s s'' := by
  obtain ⟨h1, h2, h3, lost, h4, h5⟩ := h
  obtain ⟨g1, g2, g3, lost', g4, g5⟩ := h'
  refine ⟨g1, g2.trans h2, fun x => (g3 x).trans (h3 x), lost' ++ lost, ?_, ?_⟩
  · perms [h4, g4]
  · intro e he
    rcases List.mem_append.1 he with he | he
    · exact g5 e he
    · exact h5 e he

end Kept

/-! ## Calls that return -/

section Ok

variable {C : Block K V} {U : Unwinding C.State K V} {I : C.State → Prop}
  {ec : C.State → List (K × V)} {Pre : List (K × V) → Prop}

theorem ok_contains (hA : Agrees C U) (hC : Core C I ec Pre) {s : C.State} (hI : I s) {k : K} {b s'}
    (h : (U.contains k).res s = .ok (b, s')) (q : Prop) (P) : Kept C I ec q [] P s s' := by
  rw [hA.contains] at h
  obtain ⟨b1, s1, h1, h2, h3, -, h5, -⟩ := hC.contains s k hI
  rw [h1] at h; cases h
  exact Kept.losing h2 h3 (h5 ▸ List.Perm.refl _) (by simp)

theorem ok_take (hA : Agrees C U) (hC : Core C I ec Pre) {s : C.State} (hI : I s) {k : K}
    {o : Option (K × V)} {s'} (h : (U.take k).res s = .ok (o, s')) :
    I s' ∧ C.capacity s' = C.capacity s ∧ (ec s' ++ o.toList).Perm (ec s) ∧ ∀ e ∈ o, e.1 = k := by
  rw [hA.take] at h
  obtain ⟨o1, s1, h1, h2, h3, h4⟩ := hC.take s k hI
  rw [h1] at h
  simp only [Res.ok.injEq, Prod.mk.injEq] at h
  obtain ⟨rfl, rfl⟩ := h
  refine ⟨h2, h3, ?_⟩
  cases o1 with
  | none => exact ⟨by simpa using h4.2, by simp⟩
  | some e =>
    refine ⟨?_, by simpa using h4.1⟩
    have := h4.2
    simp only [Option.toList_some]
    perms [this]

theorem ok_takeMultiple (hA : Agrees C U) (hC : Core C I ec Pre) {s : C.State} (hI : I s) {ks : List K}
    {r s'} (h : (U.takeMultiple ks).res s = .ok (r, s')) :
    I s' ∧ C.capacity s' = C.capacity s ∧ (ec s' ++ r.1).Perm (ec s) ∧ (∀ e ∈ r.1, e.1 ∈ ks) ∧
      r.2.Subperm ks := by
  rw [hA.takeMultiple] at h
  obtain ⟨out, ks', s1, h1, h2, h3, h4, h5, -, h7, -⟩ := hC.takeMultiple s ks hI
  rw [h1] at h
  simp only [Res.ok_bind, Res.ok.injEq, Prod.mk.injEq] at h
  obtain ⟨rfl, rfl⟩ := h
  exact ⟨h2, h3, h4, h5, h7⟩

theorem ok_pop (hA : Agrees C U) (hP : PopOk C I ec) {s : C.State} (hI : I s) {n : Nat} {out s'}
    (h : (U.pop n).res s = .ok (out, s')) :
    I s' ∧ C.capacity s' = C.capacity s ∧ (ec s' ++ out).Perm (ec s) := by
  rw [hA.pop] at h
  exact hP s n out s' hI h

theorem ok_push (hA : Agrees C U) (hC : Core C I ec (fun _ => True)) {s : C.State} (hI : I s) {l out s'}
    (h : (U.push l).res s = .ok (out, s')) :
    I s' ∧ C.capacity s' = C.capacity s ∧ (ec s' ++ out).Perm (ec s ++ l) := by
  rw [hA.push] at h
  obtain ⟨o, s1, h1, h2, h3, h4⟩ := hC.push s l hI trivial
  rw [h1] at h; cases h
  exact ⟨h2, h3, h4⟩

theorem ok_flush (hA : Agrees C U) (hC : Core C I ec Pre) {s : C.State} (hI : I s) {out s'}
    (h : U.flush.res s = .ok (out, s')) :
    I s' ∧ C.capacity s' = C.capacity s ∧ (ec s' ++ out).Perm (ec s) := by
  rw [hA.flush] at h
  obtain ⟨o, s1, h1, h2, h3, h4⟩ := hC.flush s hI
  rw [h1] at h; cases h
  exact ⟨h2, h3, h4⟩

end Ok

theorem res_fst_ok {σ τ α : Type} {m : M σ α} {s : σ × τ} {a s'} (h : (fst m).res s = .ok (a, s')) :
    m.res s.1 = .ok (a, s'.1) ∧ s'.2 = s.2 := by
  rw [res_fst'] at h
  cases hm : m.res s.1 with
  | panic => simp [hm] at h
  | ok p => simp [hm] at h; obtain ⟨h1, h2⟩ := h; subst h2; exact ⟨by rw [← h1], rfl⟩

theorem res_snd_ok {σ τ α : Type} {m : M τ α} {s : σ × τ} {a s'} (h : (snd m).res s = .ok (a, s')) :
    m.res s.2 = .ok (a, s'.2) ∧ s'.1 = s.1 := by
  rw [res_snd'] at h
  cases hm : m.res s.2 with
  | panic => simp [hm] at h
  | ok p => simp [hm] at h; obtain ⟨h1, h2⟩ := h; subst h2; exact ⟨by rw [← h1], rfl⟩

theorem res_head_ok {σ α : Type} {m : M σ α} {c : σ} {cs : List σ} {a s'}
    (h : (head m).res (c :: cs) = .ok (a, s')) : ∃ c', m.res c = .ok (a, c') ∧ s' = c' :: cs := by
  rw [res_head] at h
  cases hm : m.res c with
  | panic => simp [hm] at h
  | ok p => simp [hm] at h; obtain ⟨h1, h2⟩ := h; exact ⟨p.2, by rw [← h1], h2.symm⟩

theorem res_user_ok {σ : Type} {s : σ} {a s'} (h : (user : M σ Unit).res s = .ok (a, s')) : s' = s := by
  simp at h; exact h.symm

theorem res_ofRes_ok {σ α : Type} {r : Res α} {s : σ} {a s'} (h : (ofRes r : M σ α).res s = .ok (a, s')) :
    r = .ok a ∧ s' = s := by
  rw [res_ofRes] at h
  cases r with
  | panic => simp at h
  | ok b => simp at h; exact ⟨by rw [h.1], h.2.symm⟩

theorem esc_ofRes_ok {σ α : Type} {r : Res α} {a : α} {s : σ} {E : σ → Prop} (h : r = .ok a) :
    (ofRes r : M σ α).Esc s E := by
  subst h; exact esc_pure a s E

/-- `user`, then `m`. -/
theorem esc_user_bind {σ α : Type} {m : M σ α} {s : σ} {E : σ → Prop} (h : E s) (hm : m.Esc s E) :
    (user >>= fun _ => m).Esc s E :=
  esc_bind (esc_user h) fun _ s' h' => by rw [res_user_ok h']; exact hm

theorem esc_ofRes_bind {σ α β : Type} {r : Res α} {f : α → M σ β} {s : σ} {E : σ → Prop} (h : E s)
    (hm : ∀ a, r = .ok a → (f a).Esc s E) : (ofRes r >>= f).Esc s E :=
  esc_bind (esc_ofRes h) fun a s' h' => by rw [(res_ofRes_ok h').2]; exact hm a (res_ofRes_ok h').1

theorem esc_set_bind {σ α : Type} {m : M σ α} {s t : σ} {E : σ → Prop} (hm : m.Esc t E) :
    (set t >>= fun _ => m).Esc s E :=
  esc_bind (esc_set t s E) fun _ s' h' => by simp at h'; rw [← h']; exact hm

/-! ## Array -/

section ArraySurvives

variable {sz : K × V → Nat} {srt srtS : Sorter (K × V)} {left : Nat → List (K × V) → List (K × V)}

theorem arrayPop_esc (hl : ∀ n l, (left n l).Perm l) (a : Array K V) (h : Array.Inv sz a) (n : Nat) :
    (arrayPop sz srt left n).Esc a fun a' => Array.Inv sz a' ∧ a'.capacity = a.capacity ∧
      a'.values.Perm a.values := by
  unfold arrayPop
  apply esc_withState
  split
  · exact esc_pure _ _ _
  split
  · exact esc_set_bind (esc_pure _ _ _)
  rename_i hne hsz
  have perm : ∀ l : List (K × V), l.Perm a.values →
      (fun a' : Array K V => Array.Inv sz a' ∧ a'.capacity = a.capacity ∧ a'.values.Perm a.values)
        { a with values := l } := by
    intro l hl
    exact ⟨⟨by rw [h.1]; exact (total_perm sz hl).symm, h.2⟩, rfl, hl⟩
  refine esc_bind (esc_zoom (esc_sort fun m => perm _ (hl m _))) fun _ a1 h1 => ?_
  rw [res_zoom] at h1
  simp at h1
  subst h1
  refine esc_user_bind (perm _ (srt.perm _)) ?_
  exact esc_ofRes_bind (perm _ (srt.perm _)) fun t ht => esc_set_bind (esc_pure _ _ _)

theorem arrayPush_esc (hl : ∀ n l, (left n l).Perm l) (a : Array K V) (h : Array.Inv sz a)
    (l : List (K × V)) :
    (arrayPush sz srt srtS left l).Esc a fun a' => Array.Inv sz a' ∧ a'.capacity = a.capacity ∧
      a'.values.Perm a.values := by
  have h0 : (fun a' : Array K V => Array.Inv sz a' ∧ a'.capacity = a.capacity ∧ a'.values.Perm a.values) a :=
    ⟨h, rfl, List.Perm.refl _⟩
  unfold arrayPush
  apply esc_withState
  refine esc_user_bind h0 ?_
  refine esc_ofRes_bind h0 fun room hr => ?_
  dsimp only
  split
  · exact esc_set_bind (esc_pure _ _ _)
  split
  · exact esc_set_bind (esc_pure _ _ _)
  split
  · rename_i hgt
    refine esc_user_bind h0 (esc_user_bind h0 ?_)
    have hne : srtS.run l ≠ [] := by
      intro hn
      have : l = [] := by simpa [hn] using (srtS.perm l).symm
      subst this
      simp at hgt
    obtain ⟨p, q, h1, h2, h3, -⟩ := findCut_spec sz (total sz l - a.capacity) (srtS.run l) hne
    have ht : total sz q ≤ total sz l := by
      rw [← total_perm sz (srtS.perm l), h1]; simp
    rw [h3]
    refine esc_set_bind (esc_bind (esc_ofRes_ok (Res.sub_ok ht)) fun t s' h' => ?_)
    exact esc_set_bind (esc_pure _ _ _)
  · refine esc_bind (arrayPop_esc hl a h _) fun out a' h' => ?_
    apply esc_withState
    exact esc_set_bind (esc_pure _ _ _)

theorem arrayTake_esc [DecidableEq K] (a : Array K V) (k : K) :
    (arrayTake sz k).Esc a fun a' => a' = a := by
  unfold arrayTake
  apply esc_withState
  refine esc_user_bind rfl ?_
  split
  · exact esc_pure _ _ _
  · refine esc_ofRes_bind rfl fun e he => esc_user_bind rfl (esc_ofRes_bind rfl fun t ht => ?_)
    exact esc_set_bind (esc_pure _ _ _)

theorem arrayTakeLoop_esc [LinearOrder K] (srt srtS : Sorter (K × V)) :
    ∀ (i : Nat) (keys : List K) (ret : List (K × V)) (a : Array K V), Array.Inv sz a →
      (arrayTakeLoop sz i keys ret).Esc a
        (Kept (arrayBlock sz srt srtS) (Array.Inv sz) Array.values True [] (fun e => e.1 ∈ keys) a) := by
  intro i
  induction i with
  | zero => intro keys ret a h; exact esc_pure _ _ _
  | succ i ih =>
    intro keys ret a h
    have h0 : Kept (arrayBlock sz srt srtS) (Array.Inv sz) Array.values True [] (fun e => e.1 ∈ keys) a a :=
      Kept.refl h
    unfold arrayTakeLoop
    apply esc_withState
    refine esc_ofRes_bind h0 fun e he => esc_user_bind h0 ?_
    have he : a.values[i]? = some e := by
      cases hv : a.values[i]? with
      | none => simp [hv, Res.unwrap] at he
      | some x => simpa [hv] using he
    split
    · exact ih keys ret a h
    · rename_i j hj
      refine esc_user_bind h0 (esc_ofRes_bind h0 fun t ht => esc_set_bind ?_)
      have hp := swapRemove_perm he
      have htot : sz e + total sz (swapRemove a.values i) = total sz a.values := by
        simpa using total_perm sz hp
      have hle : sz e ≤ a.totalSize := by rw [h.1]; omega
      rw [Res.sub_ok hle] at ht
      cases ht
      have hinv : Array.Inv sz { a with totalSize := a.totalSize - sz e, values := swapRemove a.values i } := by
        refine ⟨?_, ?_⟩
        · show a.totalSize - sz e = total sz (swapRemove a.values i)
          rw [h.1]; omega
        · show a.totalSize - sz e ≤ a.capacity
          have := h.2; omega
      refine (ih (keys.eraseIdx j) _ _ hinv).mono fun a' ha' => ?_
      refine Kept.trans (s' := ({ a with totalSize := a.totalSize - sz e, values := swapRemove a.values i } :
        Array K V)) (Kept.ok' hinv rfl (lost := [e]) ?_ ?_) (ha'.mono id fun x hx => List.mem_of_mem_eraseIdx hx)
      · show (swapRemove a.values i ++ [e]).Perm a.values
        perms [hp]
      · intro x hx
        simp at hx
        subst hx
        exact List.mem_of_getElem? (bsearch_sound hj)

theorem array_survives [LinearOrder K] (hl : ∀ n l, (left n l).Perm l) (q : Prop) :
    Survives (arrayBlock sz srt srtS) (Array.Inv sz) Array.values q (array sz srt srtS left) where
  contains s k h := by
    refine esc_withState (esc_user_bind (Kept.refl h) (esc_pure _ _ _))
  take s k h := (arrayTake_esc s k).mono fun a' ha' => by subst ha'; exact Kept.refl h
  takeMultiple (s : Array K V) ks h := by
    refine esc_withState (f := fun a : Array K V => do user; arrayTakeLoop sz a.values.length (sortKeys ks) [])
      (esc_user_bind (Kept.refl h) ?_)
    exact (arrayTakeLoop_esc srt srtS _ _ _ _ h).mono fun a' ha' =>
      ha'.mono id fun e he => (sortKeys_perm ks).mem_iff.1 he
  pop (s : Array K V) n h := (arrayPop_esc hl s h n).mono fun a' ha' =>
    Kept.losing ha'.1 ha'.2.1 ha'.2.2 (by simp)
  push (s : Array K V) l h := (arrayPush_esc hl s h l).mono fun a' ha' =>
    Kept.losing ha'.1 ha'.2.1 ha'.2.2 (by simp)
  flush s h := esc_withState (esc_set_bind (esc_pure _ _ _))

end ArraySurvives

/-! ## Exclusive -/

theorem exclusive_survives [LinearOrder K] {F B : Block K V} {UF : Unwinding F.State K V}
    {UB : Unwinding B.State K V} {If Ib ef eb qf qb} (aF : Agrees F UF) (aB : Agrees B UB)
    (cF : Core F If ef (fun _ => True)) (cB : Core B Ib eb (fun _ => True))
    (pF : PopOk F If ef) (pB : PopOk B Ib eb)
    (hF : Survives F If ef qf UF) (hB : Survives B Ib eb qb UB) :
    Survives (Byoc.exclusive F B) (fun s => If s.1 ∧ Ib s.2) (fun s => ef s.1 ++ eb s.2) (qf ∧ qb)
      (exclusive F B UF UB) := by
  -- a change of the front, of the back
  have front : ∀ {q : Prop} {l P} {s : F.State × B.State} {f' : F.State}, Ib s.2 →
      Kept F If ef q l P s.1 f' → Kept (Byoc.exclusive F B) (fun s => If s.1 ∧ Ib s.2)
        (fun s => ef s.1 ++ eb s.2) q l P s (f', s.2) := by
    rintro q l P s f' hb ⟨h1, h2, h3, lost, h4, h5⟩
    refine ⟨⟨h1, hb⟩, Nat.add_le_add_right h2 _, fun x => ?_, lost, ?_, h5⟩
    · show F.capacity f' + B.capacity s.2 = F.capacity s.1 + B.capacity s.2
      rw [h3 x]
    · show (ef f' ++ eb s.2 ++ lost).Perm (ef s.1 ++ eb s.2 ++ l)
      perms [h4]
  have back : ∀ {q : Prop} {l P} {s : F.State × B.State} {b' : B.State}, If s.1 →
      Kept B Ib eb q l P s.2 b' → Kept (Byoc.exclusive F B) (fun s => If s.1 ∧ Ib s.2)
        (fun s => ef s.1 ++ eb s.2) q l P s (s.1, b') := by
    rintro q l P s b' hb ⟨h1, h2, h3, lost, h4, h5⟩
    refine ⟨⟨hb, h1⟩, Nat.add_le_add_left h2 _, fun x => ?_, lost, ?_, h5⟩
    · show F.capacity s.1 + B.capacity b' = F.capacity s.1 + B.capacity s.2
      rw [h3 x]
    · show (ef s.1 ++ eb b' ++ lost).Perm (ef s.1 ++ eb s.2 ++ l)
      perms [h4]
  refine ⟨?_, ?_, ?_, ?_, ?_, ?_⟩
  · intro (s : F.State × B.State) k h
    refine esc_bind (σ := F.State × B.State) (esc_fst ((hF.contains s.1 k h.1).mono fun f' hf' => front h.2 hf'))
      fun b s' h' => ?_
    obtain ⟨h1, h2⟩ := res_fst_ok h'
    have hk := ok_contains aF cF h.1 h1 True (fun _ => False)
    cases b
    · refine esc_snd ?_
      rw [h2]
      refine (hB.contains s.2 k h.2).mono fun b' hb' => ?_
      exact (front h.2 hk).trans (back (s := (s'.1, s.2)) hk.1 hb')
    · exact esc_pure _ _ _
  · intro (s : F.State × B.State) k h
    refine esc_bind (σ := F.State × B.State) (esc_fst ((hF.take s.1 k h.1).mono fun f' hf' => front h.2 hf'))
      fun o s' h' => ?_
    obtain ⟨h1, h2⟩ := res_fst_ok h'
    obtain ⟨i1, i2, i3, -⟩ := ok_take aF cF h.1 h1
    cases o with
    | none =>
      refine esc_snd ?_
      rw [h2]
      refine (hB.take s.2 k h.2).mono fun b' hb' => ?_
      exact (front h.2 (Kept.ok' i1 i2 i3 (by simp))).trans (back (s := (s'.1, s.2)) i1 hb')
    | some e => exact esc_pure _ _ _
  · intro (s : F.State × B.State) ks h
    have h0 : Kept (Byoc.exclusive F B) (fun s => If s.1 ∧ Ib s.2)
        (fun s => ef s.1 ++ eb s.2) True [] (fun e => e.1 ∈ ks) s s := Kept.refl h
    refine esc_user_bind (σ := F.State × B.State) h0 ?_
    refine esc_bind (σ := F.State × B.State)
      (esc_fst ((hF.takeMultiple s.1 (sortKeys ks) h.1).mono fun f' hf' => front h.2
        (hf'.mono id fun e he => (sortKeys_perm ks).mem_iff.1 he))) fun r s' h' => ?_
    obtain ⟨h1, h2⟩ := res_fst_ok h'
    obtain ⟨i1, i2, i3, i4, i5⟩ := ok_takeMultiple aF cF h.1 h1
    have i4 : ∀ e ∈ r.1, e.1 ∈ ks := fun e he => (sortKeys_perm ks).mem_iff.1 (i4 e he)
    have hs' : s' = (s'.1, s.2) := Prod.ext rfl h2
    have hk1 : Kept (Byoc.exclusive F B) (fun s => If s.1 ∧ Ib s.2)
        (fun s => ef s.1 ++ eb s.2) True [] (fun e => e.1 ∈ ks) s (s'.1, s.2) :=
      front h.2 (Kept.ok' i1 i2 i3 i4)
    rw [hs']
    have hsub : ∀ k ∈ (r.1.map Prod.fst).foldl removeFound r.2, k ∈ ks := fun k hk =>
      (sortKeys_perm ks).mem_iff.1 (((foldl_removeFound_subperm _ _).trans i5).subset hk)
    refine esc_user_bind (σ := F.State × B.State) hk1 ?_
    refine esc_bind (σ := F.State × B.State)
      (esc_snd ((hB.takeMultiple s.2 _ h.2).mono fun b' hb' => hk1.trans
        (back (s := (s'.1, s.2)) i1 (hb'.mono id fun e he => hsub _ he)))) fun r2 s2 h'' => ?_
    obtain ⟨g1, g2⟩ := res_snd_ok h''
    obtain ⟨j1, j2, j3, j4, j5⟩ := ok_takeMultiple aB cB h.2 g1
    refine esc_user_bind (σ := F.State × B.State) ?_ (esc_pure _ _ _)
    have hs2 : s2 = (s'.1, s2.2) := Prod.ext g2 rfl
    rw [hs2]
    exact hk1.trans (back (s := (s'.1, s.2)) i1 (Kept.ok' j1 j2 j3 fun e he => hsub _ (j4 e he)))
  · intro (s : F.State × B.State) n h
    refine esc_withState (σ := F.State × B.State) ?_
    refine esc_bind (σ := F.State × B.State) (esc_snd ((hB.pop s.2 n h.2).mono fun b' hb' =>
      (back h.1 hb').mono And.right fun _ => id))
      fun v s' h' => ?_
    obtain ⟨h1, h2⟩ := res_snd_ok h'
    obtain ⟨i1, i2, i3⟩ := ok_pop aB pB h.2 h1
    have hk1 : Kept (Byoc.exclusive F B) (fun s => If s.1 ∧ Ib s.2)
        (fun s => ef s.1 ++ eb s.2) (qf ∧ qb) [] (fun e => True) s s' := by
      have : s' = (s.1, s'.2) := Prod.ext h2 rfl
      rw [this]
      exact back h.1 (Kept.ok' i1 i2 i3 (by simp))
    refine esc_withState (σ := F.State × B.State) ?_
    refine esc_ofRes_bind (σ := F.State × B.State) hk1 fun d hd => ?_
    split
    · refine esc_bind (σ := F.State × B.State) (esc_fst ?_) fun _ _ _ => esc_pure _ _ _
      rw [h2]
      refine (hF.pop s.1 _ h.1).mono fun f' hf' => ?_
      have := front (s := (s.1, s'.2)) i1 hf'
      have hs' : (s.1, s'.2) = s' := Prod.ext h2.symm rfl
      rw [hs'] at this
      exact hk1.trans (this.mono And.left fun _ => id)
    · exact esc_pure _ _ _
  · intro (s : F.State × B.State) l h
    refine esc_bind (σ := F.State × B.State)
      (esc_fst ((hF.push s.1 l h.1).mono fun f' hf' => (front h.2 hf').mono And.left fun _ => id))
      fun popped s' h' => ?_
    obtain ⟨h1, h2⟩ := res_fst_ok h'
    obtain ⟨i1, i2, i3⟩ := ok_push aF cF h.1 h1
    refine esc_snd ?_
    rw [h2]
    refine (hB.push s.2 popped h.2).mono ?_
    rintro b' ⟨k1, k2, k3, lost, k4, k5⟩
    refine ⟨⟨i1, k1⟩, ?_, fun x => ?_, lost, ?_, by simp⟩
    · show F.capacity s'.1 + B.capacity b' ≤ F.capacity s.1 + B.capacity s.2
      omega
    · show F.capacity s'.1 + B.capacity b' = F.capacity s.1 + B.capacity s.2
      rw [i2, k3 x.2]
    · show (ef s'.1 ++ eb b' ++ lost).Perm (ef s.1 ++ eb s.2 ++ l)
      perms [i3, k4]
  · intro (s : F.State × B.State) h
    refine esc_bind (σ := F.State × B.State)
      (esc_snd ((hB.flush s.2 h.2).mono fun b' hb' => (back h.1 hb').mono And.right fun _ => id))
      fun bk s1 h' => ?_
    obtain ⟨h1, h2⟩ := res_snd_ok h'
    obtain ⟨i1, i2, i3⟩ := ok_flush aB cB h.2 h1
    have e1 : s1 = (s.1, s1.2) := Prod.ext h2 rfl
    have hk1 : Kept (Byoc.exclusive F B) (fun s => If s.1 ∧ Ib s.2)
        (fun s => ef s.1 ++ eb s.2) (qf ∧ qb) [] (fun e => True) s s1 := by
      rw [e1]
      exact back h.1 (Kept.ok' i1 i2 i3 (by simp))
    have hI1 : If s1.1 := h2 ▸ h.1
    refine esc_bind (σ := F.State × B.State)
      (esc_fst ((hF.flush s1.1 hI1).mono fun f' hf' =>
        hk1.trans ((front i1 hf').mono And.left fun _ => id))) fun fr s2 h'' => ?_
    obtain ⟨g1, g2⟩ := res_fst_ok h''
    obtain ⟨j1, j2, j3⟩ := ok_flush aF cF hI1 g1
    have hb2 : Ib s2.2 := g2 ▸ i1
    refine esc_bind (σ := F.State × B.State) (esc_snd ((hB.push s2.2 fr hb2).mono ?_)) fun fr2 s3 h3 => ?_
    · rintro b' ⟨k1, k2, k3, lost, k4, k5⟩
      refine ⟨⟨j1, k1⟩, ?_, fun x => ?_, lost ++ bk, ?_, by simp⟩
      · show F.capacity s2.1 + B.capacity b' ≤ F.capacity s.1 + B.capacity s.2
        rw [g2] at k2
        rw [j2, h2]; omega
      · show F.capacity s2.1 + B.capacity b' = F.capacity s.1 + B.capacity s.2
        rw [j2, h2, k3 x.2, g2, i2]
      · show (ef s2.1 ++ eb b' ++ (lost ++ bk)).Perm (ef s.1 ++ eb s.2 ++ [])
        rw [h2] at j3
        rw [g2] at k4
        perms [i3, j3, k4]
    · obtain ⟨m1, m2⟩ := res_snd_ok h3
      obtain ⟨n1, n2, n3⟩ := ok_push aB cB hb2 m1
      refine esc_bind (σ := F.State × B.State) (esc_snd ((hB.flush s3.2 n1).mono ?_)) fun _ _ _ => esc_pure _ _ _
      rintro b' ⟨k1, k2, k3, lost, k4, k5⟩
      rw [m2]
      refine ⟨⟨j1, k1⟩, ?_, fun x => ?_, lost ++ fr2 ++ bk, ?_, by simp⟩
      · show F.capacity s2.1 + B.capacity b' ≤ F.capacity s.1 + B.capacity s.2
        rw [g2] at n2
        rw [j2, h2]; omega
      · show F.capacity s2.1 + B.capacity b' = F.capacity s.1 + B.capacity s.2
        rw [j2, h2, k3 x.2, n2, g2, i2]
      · show (ef s2.1 ++ eb b' ++ (lost ++ fr2 ++ bk)).Perm (ef s.1 ++ eb s.2 ++ [])
        rw [h2] at j3
        rw [g2] at n3
        perms [i3, j3, k4, n3]

/-! ## Lists of containers -/

section Lists

variable {C : Block K V} {U : Unwinding C.State K V} {I : C.State → Prop}
  {ec : C.State → List (K × V)} {q : Prop} {P : K × V → Prop}

theorem forall2_refl {s : List C.State} (h : ∀ c ∈ s, I c) :
    List.Forall₂ (Kept C I ec q [] P) s s := by
  induction s with
  | nil => exact .nil
  | cons c cs ih => exact .cons (Kept.refl (h c (by simp))) (ih fun x hx => h x (by simp [hx]))

theorem forall2_elems {s s' : List C.State} (h : List.Forall₂ (Kept C I ec q [] P) s s') :
    (∀ c ∈ s', I c) ∧ (s'.map C.capacity).sum ≤ (s.map C.capacity).sum ∧
      (q → (s'.map C.capacity).sum = (s.map C.capacity).sum) ∧
      ∃ lost, (batchElems ec s' ++ lost).Perm (batchElems ec s) ∧ ∀ e ∈ lost, P e := by
  induction h with
  | nil => exact ⟨by simp, by simp, by simp, [], by simp, by simp⟩
  | cons hc _ ih =>
    obtain ⟨h1, h2, h3, lost, h4, h5⟩ := hc
    obtain ⟨g1, g2, g3, losts, g4, g5⟩ := ih
    refine ⟨?_, by simp only [List.map_cons, List.sum_cons]; omega, fun x => ?_, lost ++ losts, ?_, ?_⟩
    · intro x hx
      rcases List.mem_cons.1 hx with rfl | hx
      · exact h1
      · exact g1 x hx
    · simp only [List.map_cons, List.sum_cons]; rw [h3 x, g3 x]
    · simp only [batchElems_cons]
      perms [h4, g4]
    · intro e he
      rcases List.mem_append.1 he with he | he
      · exact h5 e he
      · exact g5 e he

theorem forall2_trans {s s' s'' : List C.State} (h : List.Forall₂ (Kept C I ec q [] P) s s') :
    List.Forall₂ (Kept C I ec q [] P) s' s'' → List.Forall₂ (Kept C I ec q [] P) s s'' := by
  induction h generalizing s'' with
  | nil => intro h; exact h
  | cons hc _ ih => intro h; cases h with | cons hd h => exact .cons (hc.trans hd) (ih h)

theorem batch_kept {s s' : List C.State} (h : List.Forall₂ (Kept C I ec q [] P) s s') :
    Kept (Byoc.batch C) (batchInv I) (batchElems ec) q [] P s s' := by
  obtain ⟨h1, h2, h3, lost, h4, h5⟩ := forall2_elems h
  exact ⟨h1, h2, h3, lost, by simpa using h4, h5⟩

theorem routed_forall2 {hash : K → Nat} {n : Nat} {s s' : List C.State}
    (h : List.Forall₂ (Kept C I ec q [] P) s s') :
    ∀ j, Associative.Routed hash n I ec j s → Associative.Routed hash n I ec j s' := by
  induction h with
  | nil => intro j h; exact h
  | cons hc _ ih =>
    intro j hr
    rw [Associative.routed_cons] at hr ⊢
    obtain ⟨h1, h2, h3, lost, h4, h5⟩ := hc
    refine ⟨⟨h1, fun e he => hr.1.2 e ?_⟩, ih _ hr.2⟩
    have := h4.mem_iff.1 (List.mem_append_left lost he)
    simpa using this

theorem assoc_kept {hash : K → Nat} {s s' : List C.State} (hI : Associative.Inv hash I ec s)
    (h : List.Forall₂ (Kept C I ec q [] P) s s') :
    Kept (Byoc.associative hash C) (Associative.Inv hash I ec) (batchElems ec) q [] P s s' := by
  obtain ⟨h1, h2, h3, lost, h4, h5⟩ := forall2_elems h
  refine ⟨⟨h.length_eq ▸ hI.1, ?_⟩, h2, h3, lost, by simpa using h4, h5⟩
  rw [← h.length_eq]
  exact routed_forall2 h 0 hI.2

variable {Pre : List (K × V) → Prop} (aC : Agrees C U) (cC : Core C I ec (fun _ => True))
  (pC : PopOk C I ec) (hC : Survives C I ec q U)
include aC cC hC

theorem batchContains_esc (k : K) : ∀ s : List C.State, (∀ c ∈ s, I c) →
    (batchContains C U k s).Esc s (List.Forall₂ (Kept C I ec True [] (fun _ => False)) s) := by
  intro s
  induction s with
  | nil => intro _; exact esc_pure _ _ _
  | cons c cs ih =>
    intro h
    have hcs : ∀ c ∈ cs, I c := fun x hx => h x (by simp [hx])
    unfold batchContains
    refine esc_bind (esc_head ((hC.contains c k (h c (by simp))).mono fun c' hc' => .cons hc' (forall2_refl hcs)))
      fun b s' h' => ?_
    obtain ⟨c', h1, rfl⟩ := res_head_ok h'
    have hk := ok_contains aC cC (h c (by simp)) h1 True (fun _ => False)
    cases b
    · exact esc_tail ((ih hcs).mono fun cs' h' => .cons hk h')
    · exact esc_pure _ _ _

theorem batchTake_esc (k : K) : ∀ s : List C.State, (∀ c ∈ s, I c) →
    (batchTake C U k s).Esc s (List.Forall₂ (Kept C I ec True [] (fun _ => False)) s) := by
  intro s
  induction s with
  | nil => intro _; exact esc_pure _ _ _
  | cons c cs ih =>
    intro h
    have hcs : ∀ c ∈ cs, I c := fun x hx => h x (by simp [hx])
    unfold batchTake
    refine esc_bind (esc_head ((hC.take c k (h c (by simp))).mono fun c' hc' => .cons hc' (forall2_refl hcs)))
      fun o s' h' => ?_
    obtain ⟨c', h1, rfl⟩ := res_head_ok h'
    obtain ⟨i1, i2, i3, -⟩ := ok_take aC cC (h c (by simp)) h1
    cases o with
    | none => exact esc_tail ((ih hcs).mono fun cs' h' => .cons (Kept.ok' i1 i2 i3 (by simp)) h')
    | some e => exact esc_pure _ _ _

theorem batchTakeMultiple_esc : ∀ (s : List C.State) (ks : List K), (∀ c ∈ s, I c) →
    (batchTakeMultiple C U s ks).Esc s (List.Forall₂ (Kept C I ec True [] (fun e => e.1 ∈ ks)) s) := by
  intro s
  induction s with
  | nil => intro ks _; exact esc_pure _ _ _
  | cons c cs ih =>
    intro ks h
    have hcs : ∀ c ∈ cs, I c := fun x hx => h x (by simp [hx])
    cases ks with
    | nil => exact esc_pure _ _ _
    | cons k ks =>
      unfold batchTakeMultiple
      refine esc_bind (esc_head ((hC.takeMultiple c (k :: ks) (h c (by simp))).mono
        fun c' hc' => .cons hc' (forall2_refl hcs))) fun r s' h' => ?_
      obtain ⟨c', h1, rfl⟩ := res_head_ok h'
      obtain ⟨i1, i2, i3, i4, i5⟩ := ok_takeMultiple aC cC (h c (by simp)) h1
      refine esc_bind (esc_tail ((ih r.2 hcs).mono fun cs' h' => ?_)) fun _ _ _ => esc_pure _ _ _
      refine .cons (Kept.ok' i1 i2 i3 i4) (h'.imp fun a b hab => ?_)
      exact hab.mono id fun e he => i5.subset he

theorem batchFlush_esc : ∀ s : List C.State, (∀ c ∈ s, I c) →
    (batchFlush C U s).Esc s (List.Forall₂ (Kept C I ec q [] (fun _ => True)) s) := by
  intro s
  induction s with
  | nil => intro _; exact esc_pure _ _ _
  | cons c cs ih =>
    intro h
    have hcs : ∀ c ∈ cs, I c := fun x hx => h x (by simp [hx])
    unfold batchFlush
    refine esc_bind (esc_head ((hC.flush c (h c (by simp))).mono fun c' hc' => .cons hc' (forall2_refl hcs)))
      fun o s' h' => ?_
    obtain ⟨c', h1, rfl⟩ := res_head_ok h'
    obtain ⟨i1, i2, i3⟩ := ok_flush aC cC (h c (by simp)) h1
    exact esc_bind (esc_tail ((ih hcs).mono fun cs' h' => .cons (Kept.ok' i1 i2 i3 (by simp)) h'))
      fun _ _ _ => esc_pure _ _ _

theorem assocTakeLoop_esc : ∀ (s : List C.State) (gs : List (List K)), (∀ c ∈ s, I c) →
    (assocTakeLoop C U s gs).Esc s (List.Forall₂ (Kept C I ec True [] (fun e => e.1 ∈ gs.flatten)) s) := by
  intro s
  induction s with
  | nil => intro gs _; cases gs <;> exact esc_pure _ _ _
  | cons c cs ih =>
    intro gs h
    have hcs : ∀ c ∈ cs, I c := fun x hx => h x (by simp [hx])
    have hI := h c (by simp)
    cases gs with
    | nil => exact esc_pure _ _ _
    | cons g gs =>
      unfold assocTakeLoop
      split
      · refine esc_tail ((ih gs hcs).mono fun cs' h' => .cons (Kept.refl hI) (h'.imp fun a b hab => ?_))
        exact hab.mono id fun e he => by simp only [List.flatten_cons, List.mem_append]; exact Or.inr he
      · refine esc_bind (esc_head ((hC.takeMultiple c g hI).mono fun c' hc' => .cons (hc'.mono id
          fun e he => by simp only [List.flatten_cons, List.mem_append]; exact Or.inl he) (forall2_refl hcs)))
          fun r s' h' => ?_
        obtain ⟨c', h1, rfl⟩ := res_head_ok h'
        obtain ⟨i1, i2, i3, i4, i5⟩ := ok_takeMultiple aC cC hI h1
        refine esc_bind (esc_tail ((ih gs hcs).mono fun cs' h' => ?_)) fun _ _ _ => esc_pure _ _ _
        refine .cons (Kept.ok' i1 i2 i3 fun e he => ?_) (h'.imp fun a b hab => ?_)
        · simp only [List.flatten_cons, List.mem_append]; exact Or.inl (i4 e he)
        · exact hab.mono id fun e he => by simp only [List.flatten_cons, List.mem_append]; exact Or.inr he

theorem assocPushLoop_esc {hash : K → Nat} {n : Nat} :
    ∀ (s : List C.State) (gs : List (List (K × V))) (j : Nat), s.length = gs.length →
      Associative.Routed hash n I ec j s →
      (∀ i g, gs[i]? = some g → ∀ e ∈ g, hash e.1 % n = j + i) →
      (assocPushLoop C U s gs).Esc s fun s' => s'.length = s.length ∧ Associative.Routed hash n I ec j s' ∧
        (s'.map C.capacity).sum ≤ (s.map C.capacity).sum ∧
        (q → (s'.map C.capacity).sum = (s.map C.capacity).sum) ∧
        ∃ lost, (batchElems ec s' ++ lost).Perm (batchElems ec s ++ gs.flatten) := by
  intro s
  induction s with
  | nil => intro gs j _ _ _; cases gs <;> exact esc_pure _ _ _
  | cons c cs ih =>
    intro gs j hl hr hg
    cases gs with
    | nil => simp at hl
    | cons g gs =>
      rw [Associative.routed_cons] at hr
      have hg0 : ∀ e ∈ g, hash e.1 % n = j := by
        have := hg 0 g (by simp)
        simpa using this
      have hg' : ∀ i g', gs[i]? = some g' → ∀ e ∈ g', hash e.1 % n = j + 1 + i := by
        intro i g' hi e he
        have := hg (i + 1) g' (by simpa using hi) e he
        omega
      have route : ∀ {c' : C.State} {lost}, (ec c' ++ lost).Perm (ec c ++ g) → ∀ e ∈ ec c', hash e.1 % n = j := by
        intro c' lost hp e he
        rcases List.mem_append.1 (hp.mem_iff.1 (List.mem_append_left lost he)) with h | h
        · exact hr.1.2 e h
        · exact hg0 e h
      unfold assocPushLoop
      refine esc_bind (esc_head ((hC.push c g hr.1.1).mono ?_)) fun out s' h' => ?_
      · rintro c' ⟨h1, h2, h3, lost, h4, h5⟩
        refine ⟨by simp, Associative.routed_cons.2 ⟨⟨h1, route h4⟩, hr.2⟩, by
          simp only [List.map_cons, List.sum_cons]; omega, fun x => by
          simp only [List.map_cons, List.sum_cons]; rw [h3 x], lost ++ gs.flatten, ?_⟩
        simp only [batchElems_cons, List.flatten_cons]
        perms [h4]
      · obtain ⟨c', h1, rfl⟩ := res_head_ok h'
        obtain ⟨i1, i2, i3⟩ := ok_push aC cC hr.1.1 h1
        refine esc_bind (esc_tail ((ih gs (j + 1) (by simpa using hl) hr.2 hg').mono ?_))
          fun _ _ _ => esc_pure _ _ _
        rintro cs' ⟨g1, g2, g3, g4, lost, g5⟩
        refine ⟨by simp [g1], Associative.routed_cons.2 ⟨⟨i1, route i3⟩, g2⟩, by
          simp only [List.map_cons, List.sum_cons]; omega, fun x => by
          simp only [List.map_cons, List.sum_cons]; rw [i2, g4 x], out ++ lost, ?_⟩
        simp only [batchElems_cons, List.flatten_cons]
        perms [i3, g5]

/-- The batches visited, the one that panics and their elements are lost. -/
theorem batchPushLoop_esc : ∀ (s used : List C.State) (l : List (K × V)) (s0 : List C.State),
    (∀ c ∈ s, I c) → (batchPushLoop C U s used l).Esc s0 fun s' => ∃ pre, s = pre ++ s' := by
  intro s
  induction s with
  | nil =>
    intro used l s0 _
    cases l <;> exact esc_set_bind (esc_pure _ _ _)
  | cons c cs ih =>
    intro used l s0 h
    cases l with
    | nil => exact esc_set_bind (esc_pure _ _ _)
    | cons v vs =>
      unfold batchPushLoop
      refine esc_set_bind (esc_bind (esc_onLocal ⟨[c], rfl⟩) fun r s1 h1 => ?_)
      exact (ih _ _ _ fun x hx => h x (by simp [hx])).mono fun s' ⟨pre, hp⟩ => ⟨c :: pre, by simp [hp]⟩

include pC

theorem batchPopLoop_esc : ∀ (s : List C.State) (n : Nat), (∀ c ∈ s, I c) →
    (batchPopLoop C U s n).Esc s (List.Forall₂ (Kept C I ec q [] (fun _ => True)) s) := by
  intro s
  induction s with
  | nil => intro n _; exact esc_pure _ _ _
  | cons c cs ih =>
    intro n h
    have hcs : ∀ c ∈ cs, I c := fun x hx => h x (by simp [hx])
    have hI := h c (by simp)
    unfold batchPopLoop
    refine esc_bind (esc_head (esc_bind ((hC.pop c n hI).mono fun c' hc' => .cons hc' (forall2_refl hcs))
      fun out c1 h1 => ?_)) fun r s' h' => ?_
    · obtain ⟨i1, i2, i3⟩ := ok_pop aC pC hI h1
      refine esc_withState (esc_ofRes_bind ?_ fun _ _ => esc_pure _ _ _)
      exact .cons (Kept.ok' i1 i2 i3 (by simp)) (forall2_refl hcs)
    · obtain ⟨c', h1, rfl⟩ := res_head_ok h'
      rw [res_bind] at h1
      cases hp : (U.pop n).res c with
      | panic => simp [hp] at h1
      | ok p =>
        obtain ⟨out, c1⟩ := p
        obtain ⟨i1, i2, i3⟩ := ok_pop aC pC hI hp
        rw [hp] at h1
        simp only [Res.ok_bind, res_withState, res_bind, res_ofRes] at h1
        cases hs : Res.sub (C.size c) (C.size c1) with
        | panic => simp [hs] at h1
        | ok d =>
          simp [hs] at h1
          obtain ⟨rfl, rfl⟩ := h1
          dsimp only
          split
          · exact esc_pure _ _ _
          · exact esc_bind (esc_tail ((ih _ hcs).mono fun cs' h' => .cons (Kept.ok' i1 i2 i3 (by simp)) h'))
              fun _ _ _ => esc_pure _ _ _

theorem assocPopLoop_esc (target : Nat) : ∀ (bs : List (Nat × Nat)) (s : List C.State), (∀ c ∈ s, I c) →
    (assocPopLoop C U target bs).Esc s (List.Forall₂ (Kept C I ec q [] (fun _ => True)) s) := by
  have upd : ∀ (s : List C.State) (i : Nat) (c c' : C.State), (∀ c ∈ s, I c) → s[i]? = some c →
      Kept C I ec q [] (fun _ => True) c c' →
      List.Forall₂ (Kept C I ec q [] (fun _ => True)) s (s.set i c') := by
    intro s
    induction s with
    | nil => intro i c c' _ h; simp at h
    | cons d s ih =>
      intro i c c' hI h hk
      cases i with
      | zero => simp at h; subst h; exact .cons hk (forall2_refl fun x hx => hI x (by simp [hx]))
      | succ i =>
        exact .cons (Kept.refl (hI d (by simp)))
          (ih i c c' (fun x hx => hI x (by simp [hx])) (by simpa using h) hk)
  intro bs
  induction bs with
  | nil => intro s _; exact esc_pure _ _ _
  | cons b bs ih =>
    intro s h
    have h0 : List.Forall₂ (Kept C I ec q [] (fun _ => True)) s s := forall2_refl h
    unfold assocPopLoop
    refine esc_bind (esc_atIndex h0 fun c hc => ?_) fun out s' h' => ?_
    · have hI := h c (List.mem_of_getElem? hc)
      refine esc_ofRes_bind (upd s _ c c h hc (Kept.refl hI)) fun d hd => ?_
      exact (hC.pop c d hI).mono fun c' hc' => upd s _ c c' h hc hc'
    · rw [res_atIndex] at h'
      cases hc : s[b.2]? with
      | none => simp [hc, Res.unwrap] at h'
      | some c =>
        simp only [hc, Res.unwrap_some, Res.ok_bind, res_bind, res_ofRes] at h'
        have hI := h c (List.mem_of_getElem? hc)
        cases hs : Res.sub b.1 target with
        | panic => simp [hs] at h'
        | ok d =>
          simp only [hs, Res.ok_bind] at h'
          cases hp : (U.pop d).res c with
          | panic => simp [hp] at h'
          | ok p =>
            obtain ⟨o, c'⟩ := p
            obtain ⟨i1, i2, i3⟩ := ok_pop aC pC hI hp
            simp [hp] at h'
            obtain ⟨rfl, rfl⟩ := h'
            have hf := upd s _ c c' h hc (Kept.ok' i1 i2 i3 (by simp))
            refine esc_bind ((ih _ (forall2_elems hf).1).mono fun s2 h2 => ?_) fun _ _ _ => esc_pure _ _ _
            exact forall2_trans hf h2

theorem batch_survives : Survives (Byoc.batch C) (batchInv I) (batchElems ec) False (batch C U) where
  contains (s : List C.State) k h := (batchContains_esc aC cC hC k s h).mono fun _ h => batch_kept h
  take (s : List C.State) k h := (batchTake_esc aC cC hC k s h).mono fun _ h => batch_kept h
  takeMultiple (s : List C.State) ks h := (batchTakeMultiple_esc aC cC hC s ks h).mono fun _ h => batch_kept h
  pop (s : List C.State) n h := by
    have h' : ∀ c ∈ s.reverse, I c := fun c hc => h c (List.mem_reverse.1 hc)
    refine esc_withState (σ := List C.State) (esc_zoom ((batchPopLoop_esc aC cC pC hC s.reverse n h').mono
      fun s' hs' => (batch_kept (q := q) ?_).mono False.elim fun _ => id))
    have := List.rel_reverse hs'
    simpa using this
  push (s : List C.State) l h := by
    refine (batchPushLoop_esc aC cC hC s [] l s h).mono ?_
    rintro s' ⟨pre, rfl⟩
    refine ⟨fun c hc => h c (by simp [hc]), ?_, False.elim, batchElems ec pre ++ l, ?_, by simp⟩
    · show (s'.map C.capacity).sum ≤ ((pre ++ s').map C.capacity).sum
      simp
    · simp only [batchElems_append]; perms []
  flush (s : List C.State) h := (batchFlush_esc aC cC hC s h).mono fun _ h => (batch_kept h).mono False.elim fun _ => id

theorem associative_survives (hash : K → Nat) :
    Survives (Byoc.associative hash C) (Associative.Inv hash I ec) (batchElems ec) q (associative C U hash) := by
  have refl : ∀ {q P} {s : List C.State}, Associative.Inv hash I ec s →
      Kept (Byoc.associative hash C) (Associative.Inv hash I ec) (batchElems ec) q [] P s s := fun h => Kept.refl h
  -- a change of one set
  have one : ∀ {q : Prop} {P : K × V → Prop} {s : List C.State} {i c c'}, Associative.Inv hash I ec s →
      s[i]? = some c → Kept C I ec q [] P c c' →
      Kept (Byoc.associative hash C) (Associative.Inv hash I ec) (batchElems ec) q [] P s (s.set i c') := by
    intro q P s i c c' h hc hk
    refine assoc_kept h ?_
    have hI := h.2.inv
    clear h
    induction s generalizing i with
    | nil => simp at hc
    | cons d s ih =>
      cases i with
      | zero => simp at hc; subst hc; exact .cons hk (forall2_refl fun x hx => hI x (by simp [hx]))
      | succ i =>
        exact .cons (Kept.refl (hI d (by simp))) (ih (by simpa using hc) fun x hx => hI x (by simp [hx]))
  refine ⟨?_, ?_, ?_, ?_, ?_, ?_⟩
  · intro (s : List C.State) k h
    refine esc_withState (σ := List C.State) (esc_user_bind (refl h) (esc_ofRes_bind (refl h) fun i hi => ?_))
    exact esc_atIndex (refl h) fun c hc =>
      (hC.contains c k (h.2.inv c (List.mem_of_getElem? hc))).mono fun c' hc' => one h hc hc'
  · intro (s : List C.State) k h
    refine esc_withState (σ := List C.State) (esc_user_bind (refl h) (esc_ofRes_bind (refl h) fun i hi => ?_))
    exact esc_atIndex (refl h) fun c hc =>
      (hC.take c k (h.2.inv c (List.mem_of_getElem? hc))).mono fun c' hc' => one h hc hc'
  · intro (s : List C.State) ks h
    refine esc_withState (σ := List C.State) (esc_user_bind (refl h) (esc_ofRes_bind (refl h) fun g hg => ?_))
    refine (assocTakeLoop_esc aC cC hC s g h.2.inv).mono fun s' hs' => (assoc_kept h hs').mono id fun e he => ?_
    obtain ⟨G, h1, -, h3, -⟩ := Associative.distribute_replicate hash id s.length h.1 ks
    rw [h1] at hg
    cases hg
    exact h3.mem_iff.1 he
  · intro (s : List C.State) n h
    refine esc_withState (σ := List C.State) ?_
    dsimp only
    split
    · exact esc_pure _ _ _
    split
    · -- when the whole content is popped, the sets are flushed
      exact (batchFlush_esc aC cC hC s h.2.inv).mono fun _ h' => (assoc_kept h h')
    · exact esc_ofRes_bind (refl h) fun r hr =>
        (assocPopLoop_esc aC cC pC hC r.1 r.2 s h.2.inv).mono fun _ h' => assoc_kept h h'
  · intro (s : List C.State) l h
    have h0 : Kept (Byoc.associative hash C) (Associative.Inv hash I ec) (batchElems ec) q l (fun _ => True) s s :=
      Kept.losing h rfl (List.Perm.refl _) (by simp)
    refine esc_withState (σ := List C.State) (esc_user_bind h0 (esc_ofRes_bind h0 fun g hg => ?_))
    obtain ⟨G, h1, h2, h3, h4⟩ := Associative.distribute_replicate hash Prod.fst s.length h.1 l
    rw [h1] at hg
    cases hg
    refine (assocPushLoop_esc aC cC hC (n := s.length) s g 0 h2.symm h.2 ?_).mono ?_
    · intro i g' hi e he
      rw [h4 i g' hi] at he
      simpa using (List.mem_filter.1 he).2
    · rintro s' ⟨g1, g2, g3, g4, lost, g5⟩
      exact ⟨⟨g1 ▸ h.1, g1 ▸ g2⟩, g3, g4, lost, g5.trans (h3.append_left _), by simp⟩
  · intro (s : List C.State) h
    exact (batchFlush_esc aC cC hC s h.2.inv).mono fun _ h' => assoc_kept h h'

end Lists

/-! ## FlushStopper, dynamic containers, Decorator, Profiler -/

section Wrappers

variable {C : Block K V} {U : Unwinding C.State K V} {I : C.State → Prop}
  {ec : C.State → List (K × V)} {q : Prop}

theorem flushStopper_survives (hC : Survives C I ec q U) :
    Survives (Byoc.flushStopper C) I ec q (flushStopper (S := C.State) U) where
  contains := hC.contains
  take := hC.take
  takeMultiple := hC.takeMultiple
  pop := hC.pop
  push := hC.push
  flush _ _ := esc_pure _ _ _

theorem defaultTakeMultiple_esc (aC : Agrees C U) (cC : Core C I ec (fun _ => True))
    (hC : Survives C I ec q U) : ∀ (ks : List K) (s : C.State), I s →
    (defaultTakeMultiple U.take ks).Esc s (Kept C I ec True [] (fun e => e.1 ∈ ks) s) := by
  intro ks
  induction ks with
  | nil => intro s _; exact esc_pure _ _ _
  | cons k ks ih =>
    intro s h
    unfold defaultTakeMultiple
    refine esc_bind ((hC.take s k h).mono fun s' hs' => hs'.mono id fun _ => False.elim) fun o s1 h1 => ?_
    obtain ⟨i1, i2, i3, i4⟩ := ok_take aC cC h h1
    refine esc_bind ((ih s1 i1).mono fun s' hs' => ?_) fun _ _ _ => esc_pure _ _ _
    refine (Kept.ok' i1 i2 i3 fun e he => ?_).trans (hs'.mono id fun e he => List.mem_cons_of_mem _ he)
    have : e ∈ o := by simpa using he
    rw [i4 e this]
    exact List.mem_cons_self

theorem viaDefault_survives (aC : Agrees C U) (cC : Core C I ec (fun _ => True))
    (hC : Survives C I ec q U) : Survives (Byoc.viaDefault C) I ec q (viaDefault (S := C.State) U) where
  contains := hC.contains
  take := hC.take
  takeMultiple s ks h := esc_bind (σ := C.State) (defaultTakeMultiple_esc aC cC hC ks s h)
    fun _ _ _ => esc_pure _ _ _
  pop := hC.pop
  push := hC.push
  flush := hC.flush

theorem anyOf_survives {ι : Type} {B : ι → Block K V} {U : ∀ i, Unwinding (B i).State K V}
    {I : ∀ i, (B i).State → Prop} {e : ∀ i, (B i).State → List (K × V)} {q : ι → Prop}
    (h : ∀ i, Survives (B i) (I i) (e i) (q i) (U i)) :
    Survives (Byoc.anyOf B) (fun s => I s.1 s.2) (fun s => e s.1 s.2) (∀ i, q i)
      (anyOf (S := fun i => (B i).State) U) := by
  have lift : ∀ {q' : Prop} {l P} {s : Σ i, (B i).State} {c : (B s.1).State}, ((∀ i, q i) → q') →
      Kept (B s.1) (I s.1) (e s.1) q' l P s.2 c →
      Kept (Byoc.anyOf B) (fun s => I s.1 s.2) (fun s => e s.1 s.2) (∀ i, q i) l P s ⟨s.1, c⟩ := by
    rintro q' l P s c hq ⟨h1, h2, h3, lost, h4, h5⟩
    exact ⟨h1, h2, fun x => h3 (hq x), lost, h4, h5⟩
  have lift' : ∀ {l P} {s : Σ i, (B i).State} {c : (B s.1).State},
      Kept (B s.1) (I s.1) (e s.1) True l P s.2 c →
      Kept (Byoc.anyOf B) (fun s => I s.1 s.2) (fun s => e s.1 s.2) True l P s ⟨s.1, c⟩ := by
    rintro l P s c ⟨h1, h2, h3, lost, h4, h5⟩
    exact ⟨h1, h2, h3, lost, h4, h5⟩
  exact {
    contains := fun s k hs => esc_sigma (ι := ι) (S := fun i => (B i).State) (m := fun i => (U i).contains k)
      (((h s.1).contains s.2 k hs).mono fun c hc => lift' hc)
    take := fun s k hs => esc_sigma (ι := ι) (S := fun i => (B i).State) (m := fun i => (U i).take k)
      (((h s.1).take s.2 k hs).mono fun c hc => lift' hc)
    takeMultiple := fun s ks hs => esc_sigma (ι := ι) (S := fun i => (B i).State) (m := fun i => (U i).takeMultiple ks)
      (((h s.1).takeMultiple s.2 ks hs).mono fun c hc => lift' hc)
    pop := fun s n hs => esc_sigma (ι := ι) (S := fun i => (B i).State) (m := fun i => (U i).pop n)
      (((h s.1).pop s.2 n hs).mono fun c hc => lift (fun x => x _) hc)
    push := fun s l hs => esc_sigma (ι := ι) (S := fun i => (B i).State) (m := fun i => (U i).push l)
      (((h s.1).push s.2 l hs).mono fun c hc => lift (fun x => x _) hc)
    flush := fun s hs => esc_sigma (ι := ι) (S := fun i => (B i).State) (m := fun i => (U i).flush)
      (((h s.1).flush s.2 hs).mono fun c hc => lift (fun x => x _) hc) }

theorem decorator_survives (D : Decoration V) (hD : ∀ f v, D.unwrap (D.wrap f v).1 = v) {C : Block K D.Item}
    {U : Unwinding C.State K D.Item} {I : C.State → Prop} {ec : C.State → List (K × D.Item)}
    (hC : Survives C I ec q U) :
    Survives (Byoc.decorator D C) (fun s => I s.1) (fun s => (ec s.1).map (strip D)) q
      (decorator D (S := C.State) U) := by
  have lift : ∀ {q : Prop} {l : List (K × D.Item)} {P : K × D.Item → Prop} {P' : K × V → Prop}
      {s : C.State × D.Factory} {c : C.State} {f : D.Factory}, (∀ e, P e → P' (strip D e)) →
      Kept C I ec q l P s.1 c →
      Kept (Byoc.decorator D C) (fun s => I s.1) (fun s => (ec s.1).map (strip D)) q (l.map (strip D)) P' s
        (c, f) := by
    rintro q l P P' s c f hP ⟨h1, h2, h3, lost, h4, h5⟩
    refine ⟨h1, h2, h3, lost.map (strip D), ?_, ?_⟩
    · have := h4.map (strip D)
      simpa using this
    · intro e he
      obtain ⟨x, hx, rfl⟩ := List.mem_map.1 he
      exact hP x (h5 x hx)
  refine ⟨?_, ?_, ?_, ?_, ?_, ?_⟩
  · intro (s : C.State × D.Factory) k h
    exact esc_fst ((hC.contains s.1 k h).mono fun c hc => lift (l := []) (P' := fun _ => False) (fun _ => id) hc)
  · intro (s : C.State × D.Factory) k h
    exact esc_bind (σ := C.State × D.Factory)
      (esc_fst ((hC.take s.1 k h).mono fun c hc => lift (l := []) (P' := fun _ => False) (fun _ => id) hc)) fun _ _ _ => esc_pure _ _ _
  · intro (s : C.State × D.Factory) ks h
    exact esc_bind (σ := C.State × D.Factory)
      (esc_fst ((hC.takeMultiple s.1 ks h).mono fun c hc => lift (l := []) (P' := fun e => e.1 ∈ ks) (fun _ => id) hc))
      fun _ _ _ => esc_pure _ _ _
  · intro (s : C.State × D.Factory) n h
    exact esc_bind (σ := C.State × D.Factory)
      (esc_fst ((hC.pop s.1 n h).mono fun c hc => lift (l := []) (P' := fun _ => True) (fun _ => id) hc)) fun _ _ _ => esc_pure _ _ _
  · intro (s : C.State × D.Factory) l h
    refine esc_withState (σ := C.State × D.Factory) (esc_set_bind ?_)
    refine esc_bind (σ := C.State × D.Factory) (esc_fst ((hC.push s.1 _ h).mono fun c hc => ?_))
      fun _ _ _ => esc_pure _ _ _
    have := lift (P' := fun _ => True) (s := s) (f := (wrapAll D s.2 l).2) (fun _ => id) hc
    rwa [wrapAll_strip D hD] at this
  · intro (s : C.State × D.Factory) h
    exact esc_bind (σ := C.State × D.Factory)
      (esc_fst ((hC.flush s.1 h).mono fun c hc => lift (l := []) (P' := fun _ => True) (fun _ => id) hc)) fun _ _ _ => esc_pure _ _ _

theorem profiler_survives (aC : Agrees C U) (cC : Core C I ec (fun _ => True)) (pC : PopOk C I ec)
    (hC : Survives C I ec q U) :
    Survives (Byoc.profiler C) (fun s => I s.1) (fun s => ec s.1) q (profiler C U) := by
  have lift : ∀ {q : Prop} {l : List (K × V)} {P : K × V → Prop}
      {s : C.State × Stats} {c : C.State} {f : Stats}, Kept C I ec q l P s.1 c →
      Kept (Byoc.profiler C) (fun s => I s.1) (fun s => ec s.1) q l P s (c, f) := by
    rintro q l P s c f ⟨h1, h2, h3, lost, h4, h5⟩
    exact ⟨h1, h2, h3, lost, h4, h5⟩
  refine ⟨?_, ?_, ?_, ?_, ?_, ?_⟩
  · intro (s : C.State × Stats) k h
    exact esc_bind (σ := C.State × Stats) (esc_fst ((hC.contains s.1 k h).mono fun c hc => lift hc))
      fun _ _ _ => esc_withState (σ := C.State × Stats) (esc_set_bind (esc_pure _ _ _))
  · intro (s : C.State × Stats) k h
    exact esc_withState (σ := C.State × Stats) (esc_bind (σ := C.State × Stats)
      (esc_fst ((hC.take s.1 k h).mono fun c hc => lift hc))
      fun _ _ _ => esc_withState (σ := C.State × Stats) (esc_set_bind (esc_pure _ _ _)))
  · intro (s : C.State × Stats) ks h
    refine esc_withState (σ := C.State × Stats) (esc_bind (σ := C.State × Stats)
      (esc_fst ((hC.takeMultiple s.1 ks h).mono fun c hc => lift hc)) fun r s' h' => ?_)
    obtain ⟨i1, i2, i3, i4, -⟩ := ok_takeMultiple aC cC h (res_fst_ok h').1
    refine esc_withState (σ := C.State × Stats) (esc_ofRes_bind ?_ fun _ _ => esc_set_bind (esc_pure _ _ _))
    exact lift (s := s) (c := s'.1) (f := s'.2) (Kept.ok' i1 i2 i3 i4)
  · intro (s : C.State × Stats) n h
    refine esc_withState (σ := C.State × Stats) (esc_bind (σ := C.State × Stats)
      (esc_fst ((hC.pop s.1 n h).mono fun c hc => lift hc)) fun r s' h' => ?_)
    obtain ⟨i1, i2, i3⟩ := ok_pop aC pC h (res_fst_ok h').1
    refine esc_withState (σ := C.State × Stats) (esc_ofRes_bind ?_ fun _ _ => esc_set_bind (esc_pure _ _ _))
    exact lift (s := s) (c := s'.1) (f := s'.2) (Kept.ok' i1 i2 i3 (by simp))
  · intro (s : C.State × Stats) l h
    exact esc_withState (σ := C.State × Stats) (esc_bind (σ := C.State × Stats)
      (esc_fst ((hC.push s.1 l h).mono fun c hc => lift hc))
      fun _ _ _ => esc_withState (σ := C.State × Stats) (esc_set_bind (esc_pure _ _ _)))
  · intro (s : C.State × Stats) h
    exact esc_withState (σ := C.State × Stats) (esc_bind (σ := C.State × Stats)
      (esc_fst ((hC.flush s.1 h).mono fun c hc => lift hc))
      fun _ _ _ => esc_withState (σ := C.State × Stats) (esc_set_bind (esc_pure _ _ _)))

theorem Survives.mono {q' : Prop} (hC : Survives C I ec q U) (hq : q' → q) : Survives C I ec q' U where
  contains := hC.contains
  take := hC.take
  takeMultiple := hC.takeMultiple
  pop s n h := (hC.pop s n h).mono fun _ h => h.mono hq fun _ => id
  push s l h := (hC.push s l h).mono fun _ h => h.mono hq fun _ => id
  flush s h := (hC.flush s h).mono fun _ h => h.mono hq fun _ => id

/-- An invariant with something that always holds. -/
theorem Survives.and {r : C.State → Prop} (hC : Survives C I ec q U) (hr : ∀ s, r s) :
    Survives C (fun s => I s ∧ r s) ec q U := by
  have lift : ∀ {q l P s c}, Kept C I ec q l P s c → Kept C (fun s => I s ∧ r s) ec q l P s c :=
    fun h => ⟨⟨h.1, hr _⟩, h.2⟩
  exact {
    contains := fun s k h => (hC.contains s k h.1).mono fun _ => lift
    take := fun s k h => (hC.take s k h.1).mono fun _ => lift
    takeMultiple := fun s ks h => (hC.takeMultiple s ks h.1).mono fun _ => lift
    pop := fun s n h => (hC.pop s n h.1).mono fun _ => lift
    push := fun s l h => (hC.push s l h.1).mono fun _ => lift
    flush := fun s h => (hC.flush s h.1).mono fun _ => lift }

end Wrappers

/-! ## Any nesting -/

/-- No `Batch` inside. -/
def NoBatch : {V : Type} → Stack K V → Prop
  | _, .array _ _ _ => True
  | _, .exclusive f b => NoBatch f ∧ NoBatch b
  | _, .batch _ => False
  | _, .associative _ c => NoBatch c
  | _, .flushStopper c => NoBatch c
  | _, .sequential c => NoBatch c
  | _, .dyn _ c => ∀ i, NoBatch (c i)
  | _, .decorator _ _ c => NoBatch c
  | _, .profiler c => NoBatch c

theorem stack_survives [LinearOrder K] {left : (W : Type) → Nat → List (K × W) → List (K × W)}
    (hl : ∀ W n l, (left W n l).Perm l) {V : Type} (t : Stack K V) : t.WF →
    Survives t.block (t.Inv False) t.elems (NoBatch t) (stack left t) := by
  induction t with
  | array sz srt srtS => intro _; exact array_survives (hl _) _
  | exclusive f b ihf ihb =>
    intro h
    exact exclusive_survives (stack_agrees left f) (stack_agrees left b)
      ((f.core False h.1).withCapacity fun n => False → 0 < n) (b.core False h.2)
      ((f.popOk False h.1).withCapacity fun n => False → 0 < n) (b.popOk False h.2)
      ((ihf h.1).and fun _ => False.elim) (ihb h.2)
  | batch c ih =>
    intro h
    exact batch_survives (stack_agrees left c) (c.core False h) (c.popOk False h) (ih h)
  | associative hash c ih =>
    intro h
    exact associative_survives (stack_agrees left c) (c.core False h) (c.popOk False h) (ih h) hash
  | flushStopper c ih => intro h; exact flushStopper_survives (ih h)
  | sequential c ih => exact ih
  | dyn ι c ih =>
    intro h
    exact viaDefault_survives (anyOf_agrees fun i => stack_agrees left (c i))
      (anyOf_core fun i => (c i).core False (h i)) (anyOf_survives fun i => ih i (h i))
  | decorator D A c ih => intro h; exact decorator_survives D h.1 (ih h.2)
  | profiler c ih =>
    intro h
    exact profiler_survives (stack_agrees left c) (c.core False h.2) (c.popOk False h.2) (ih h.2)

end Byoc.Unwind
