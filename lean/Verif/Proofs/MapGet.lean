import Verif.Proofs.Exchange
import Verif.Proofs.Get
import Verif.Proofs.Stack

/-!
# `get` and `get_mut` through stacks of all building blocks
-/

namespace Byoc

variable {K V : Type}

/-- The value in the container after an access which changed a value `v` to `f v` in the cell: a cell that is
written leaves `f v`; a cell that is only read may have been a copy. -/
def Seen (write : Bool) (f : V → V) (v w : V) : Prop := w = f v ∨ (write = false ∧ w = v)

/-- `AccessLaw` for accesses through cells that may be copies. -/
def SeenLaw (write : Bool) (B : Block K V) (op : B.State → K → (V → V) → Res (Option V × B.State))
    (I : B.State → Prop) (e : B.State → List (K × V)) (PreF : (V → V) → Prop) : Prop :=
  ∀ s k f, I s → PreF f → ∃ o s', op s k f = .ok (o, s') ∧ I s' ∧ B.capacity s' = B.capacity s ∧
    match o with
    | none => ¬ HasKey (e s) k ∧ (e s').Perm (e s)
    | some v => ∃ w rest, Seen write f v w ∧ (e s).Perm ((k, v) :: rest) ∧ (e s').Perm ((k, w) :: rest)

theorem AccessLaw.cell {B : Block K V} {op : B.State → K → (V → V) → Res (Option V × B.State)} {I e PreF}
    (h : AccessLaw B op I e PreF) (write : Bool) : SeenLaw write B op I e PreF := by
  intro s k f hs hf
  obtain ⟨o, s', h1, h2, h3, h4⟩ := h s k f hs hf
  refine ⟨o, s', h1, h2, h3, ?_⟩
  cases o with
  | none => exact h4
  | some v => obtain ⟨r, p1, p2⟩ := h4; exact ⟨f v, r, .inl rfl, p1, p2⟩

section
variable {write : Bool} {B : Block K V} {op : B.State → K → (V → V) → Res (Option V × B.State)}
  {I : B.State → Prop} {e : B.State → List (K × V)} {PreF : (V → V) → Prop}

theorem SeenLaw.withCapacity (h : SeenLaw write B op I e PreF) (q : Nat → Prop) :
    SeenLaw write B op (fun s => I s ∧ q (B.capacity s)) e PreF := by
  intro s k f hs hf
  obtain ⟨o, s', h1, h2, h3, h4⟩ := h s k f hs.1 hf
  exact ⟨o, s', h1, ⟨h2, h3 ▸ hs.2⟩, h3, h4⟩

theorem SeenLaw.distinct (h : SeenLaw write B op I e PreF) :
    SeenLaw write B op (fun s => I s ∧ DistinctKeys (e s)) e PreF := by
  intro s k f hs hf
  obtain ⟨o, s', h1, h2, h3, h4⟩ := h s k f hs.1 hf
  refine ⟨o, s', h1, ⟨h2, ?_⟩, h3, h4⟩
  cases o with
  | none => exact hs.2.perm h4.2
  | some v =>
    obtain ⟨w, r, -, p1, p2⟩ := h4
    have := hs.2.perm p1.symm
    refine DistinctKeys.perm (l := (k, w) :: r) ?_ p2
    unfold DistinctKeys at this ⊢
    simpa using this

theorem SeenLaw.mono (h : SeenLaw write B op I e PreF) {PreF' : (V → V) → Prop}
    (hp : ∀ f, PreF' f → PreF f) : SeenLaw write B op I e PreF' :=
  fun s k f hs hf => h s k f hs (hp f hf)

end

/-! ## Leaves -/

theorem Compressed.get_cell [LinearOrder K] {z : Lz4} {cd : VecCodec (K × V)} (hlaw : cd.Law)
    (srt srtU : Sorter (K × V)) : SeenLaw false (compressed z cd srt srtU) (Compressed.get z cd)
      (Compressed.Inv z cd) (Compressed.elems z cd) (fun _ => True) := by
  intro (s : Compressed) k f hs _
  obtain ⟨o, h1, h2⟩ := Compressed.get_spec hlaw (hs.holds hlaw) k f
  refine ⟨o, s, h1, hs, rfl, ?_⟩
  cases o with
  | none => exact ⟨h2, List.Perm.refl _⟩
  | some v =>
    obtain ⟨i, hi⟩ := List.mem_iff_getElem?.1 h2
    obtain ⟨r, r1, -⟩ := Compressed.set_perm hi (k, v)
    exact ⟨v, r, .inr ⟨rfl, rfl⟩, r1, r1⟩

theorem Compressed.getMut_cell [LinearOrder K] {z : Lz4} {cd : VecCodec (K × V)} (hlaw : cd.Law)
    (srt srtU : Sorter (K × V)) : SeenLaw true (compressed z cd srt srtU) (Compressed.getMut z cd)
      (Compressed.Inv z cd) (Compressed.elems z cd) (CompressedProps.NoLonger cd) := by
  intro (s : Compressed) k f hs hf
  obtain ⟨o, c', l', h1, h2, h3, h4⟩ := Compressed.getMut_spec hlaw (hs.holds hlaw) k f hf
  refine ⟨o, c', h1, ⟨l', h2⟩, h3, ?_⟩
  rw [h2.elems hlaw]
  cases o with
  | none => exact ⟨h4.1, by rw [h4.2]⟩
  | some v => obtain ⟨r, p1, p2⟩ := h4; exact ⟨f v, r, .inl rfl, p1, p2⟩

/-! ## Wrappers -/

theorem profiler_cell {write : Bool} {C : Block K V} {I ec PreF}
    {op : C.State → K → (V → V) → Res (Option V × C.State)} (hop : SeenLaw write C op I ec PreF)
    (upd : Stats → Option V → Stats) :
    SeenLaw write (profiler C) (fun s k f => do
      let (o, c) ← op s.1 k f
      return (o, (c, upd s.2 o))) (fun s => I s.1) (fun s => ec s.1) PreF := by
  intro s k f h hf
  obtain ⟨o, s', h1, h2, h3, h4⟩ := hop s.1 k f h hf
  exact ⟨o, (s', upd s.2 o), by simp only [h1, Res.ok_bind]; rfl, h2, h3, h4⟩

theorem decorator_cell {write : Bool} {D : Decoration V} {A : Access D} (hA : A.Faithful)
    {C : Block K D.Item} {op : C.State → K → (D.Item → D.Item) → Res (Option D.Item × C.State)}
    {I : C.State → Prop} {ec : C.State → List (K × D.Item)}
    {PreF : (D.Item → D.Item) → Prop} (hop : SeenLaw write C op I ec PreF) :
    SeenLaw write (decorator D C) (fun s k f => do
        let (o, c) ← op s.1 k (A.access s.2 f)
        return (o.map D.unwrap, (c, if o.isSome then A.tick s.2 else s.2)))
      (fun s => I s.1) (decoratorElems D ec) (fun f => ∀ fac, PreF (A.access fac f)) := by
  intro s k f h hf
  obtain ⟨o, s', h1, h2, h3, h4⟩ := hop s.1 k (A.access s.2 f) h (hf s.2)
  refine ⟨o.map D.unwrap, (s', if o.isSome then A.tick s.2 else s.2),
    by simp only [h1, Res.ok_bind]; rfl, h2, h3, ?_⟩
  cases o with
  | none =>
    simp only [Option.map_none, decoratorElems, hasKey_strip] at h4 ⊢
    exact ⟨h4.1, h4.2.map _⟩
  | some i =>
    obtain ⟨j, r, hj, p1, p2⟩ := h4
    refine ⟨D.unwrap j, r.map (strip D), ?_, ?_, ?_⟩
    · rcases hj with rfl | ⟨hw, rfl⟩
      · exact .inl (hA s.2 f i)
      · exact .inr ⟨hw, rfl⟩
    · simpa [strip, decoratorElems] using p1.map (strip D)
    · simpa [strip, decoratorElems] using p2.map (strip D)

theorem anyOf_cell {write : Bool} {ι : Type} {B : ι → Block K V}
    {op : ∀ i, (B i).State → K → (V → V) → Res (Option V × (B i).State)}
    {I : ∀ i, (B i).State → Prop} {e : ∀ i, (B i).State → List (K × V)} {PreF : ι → (V → V) → Prop}
    (h : ∀ i, SeenLaw write (B i) (op i) (I i) (e i) (PreF i)) :
    SeenLaw write (anyOf B) (fun s k f => do let (o, c) ← op s.1 s.2 k f; return (o, ⟨s.1, c⟩))
      (fun s => I s.1 s.2) (fun s => e s.1 s.2) (fun f => ∀ i, PreF i f) := by
  intro s k f hs hf
  obtain ⟨o, c, h1, h2, h3, h4⟩ := h s.1 s.2 k f hs (hf s.1)
  exact ⟨o, ⟨s.1, c⟩, by simp [h1], h2, h3, h4⟩

theorem batchAccess_cell {write : Bool} {C : Block K V} {I ec PreF}
    {op : C.State → K → (V → V) → Res (Option V × C.State)} (hop : SeenLaw write C op I ec PreF)
    (k : K) (f : V → V) (hf : PreF f) : ∀ s : List C.State, (∀ c ∈ s, I c) →
    ∃ o s', batchAccess op s k f = .ok (o, s') ∧ (∀ c ∈ s', I c) ∧
      s'.map C.capacity = s.map C.capacity ∧
      match o with
      | none => ¬ HasKey (batchElems ec s) k ∧ (batchElems ec s').Perm (batchElems ec s)
      | some v => ∃ w r, Seen write f v w ∧ (batchElems ec s).Perm ((k, v) :: r) ∧
          (batchElems ec s').Perm ((k, w) :: r) := by
  intro s
  induction s with
  | nil => intro _; exact ⟨none, [], rfl, by simp, rfl, by simp [HasKey], by simp⟩
  | cons c cs ih =>
    intro h
    obtain ⟨o, c', h1, h2, h3, h4⟩ := hop c k f (h c (by simp)) hf
    cases o with
    | some v =>
      obtain ⟨w, r, hw, p1, p2⟩ := h4
      refine ⟨some v, c' :: cs, by simp only [batchAccess, h1, Res.ok_bind]; rfl, ?_, by simp [h3], w,
        r ++ batchElems ec cs, hw, ?_, ?_⟩
      · intro x hx
        rcases List.mem_cons.1 hx with rfl | hx
        · exact h2
        · exact h x (by simp [hx])
      · simp only [batchElems_cons]; perms [p1]
      · simp only [batchElems_cons]; perms [p2]
    | none =>
      obtain ⟨o, cs', g1, g2, g3, g4⟩ := ih (fun x hx => h x (by simp [hx]))
      refine ⟨o, c' :: cs', by simp only [batchAccess, h1, Res.ok_bind, g1]; rfl, ?_, by simp [h3, g3], ?_⟩
      · intro x hx
        rcases List.mem_cons.1 hx with rfl | hx
        · exact h2
        · exact g2 x hx
      · have h5 := h4.2
        cases o with
        | none =>
          refine ⟨?_, ?_⟩
          · simp only [batchElems_cons, hasKey_append, not_or]; exact ⟨h4.1, g4.1⟩
          · have g5 := g4.2
            simp only [batchElems_cons]; perms [h5, g5]
        | some v =>
          obtain ⟨w, r, hw, p1, p2⟩ := g4
          refine ⟨w, ec c ++ r, hw, ?_, ?_⟩
          · simp only [batchElems_cons]; perms [p1]
          · simp only [batchElems_cons]; perms [p2, h5]

theorem batch_cell {write : Bool} {C : Block K V} {I ec PreF}
    {op : C.State → K → (V → V) → Res (Option V × C.State)} (hop : SeenLaw write C op I ec PreF) :
    SeenLaw write (batch C) (batchAccess op) (batchInv I) (batchElems ec) PreF := by
  intro s k f h hf
  obtain ⟨o, s', h1, h2, h3, h4⟩ := batchAccess_cell hop k f hf s h
  exact ⟨o, s', h1, h2, congrArg List.sum h3, h4⟩

theorem associative_cell {write : Bool} (hash : K → Nat) {C : Block K V} {I ec PreF}
    {op : C.State → K → (V → V) → Res (Option V × C.State)} (hop : SeenLaw write C op I ec PreF) :
    SeenLaw write (associative hash C) (associativeAccess hash op) (Associative.Inv hash I ec)
      (batchElems ec) PreF := by
  intro (s : List C.State) k f h hf
  obtain ⟨hpos, hr⟩ := h
  have hlt : hash k % s.length < s.length := Nat.mod_lt _ hpos
  have hget : s[hash k % s.length]? = some s[hash k % s.length] := List.getElem?_eq_getElem hlt
  obtain ⟨hI, hroute⟩ := hr _ _ hget
  obtain ⟨o, c', h1, h2, h3, h4⟩ := hop _ k f hI hf
  obtain ⟨others, q1, q2, q3⟩ := batchElems_set ec s _ _ hget
  have hoth : ¬ HasKey others k := by
    rintro ⟨v, hv⟩
    obtain ⟨j, d, hj, hd, he⟩ := q2 _ hv
    have := (hr j d hd).2 _ he
    simp at this
    exact hj this.symm
  have hroute' : ∀ e ∈ ec c', hash e.1 % s.length = hash k % s.length := by
    intro e he
    cases o with
    | none =>
      have := hroute e (h4.2.mem_iff.1 he)
      simpa using this
    | some v =>
      obtain ⟨w, r, -, p1, p2⟩ := h4
      rcases List.mem_cons.1 (p2.mem_iff.1 he) with rfl | he
      · rfl
      · have := hroute e (p1.mem_iff.2 (List.mem_cons_of_mem _ he))
        simpa using this
  refine ⟨o, s.set (hash k % s.length) c', ?_, ⟨by simpa using hpos, ?_⟩, ?_, ?_⟩
  · simp only [associativeAccess, Associative.set, Nat.ne_of_gt hpos, if_false, Res.ok_bind, hget,
      Res.unwrap_some, h1]
    rfl
  · intro i c hc
    rw [List.length_set]
    rw [List.getElem?_set] at hc
    split at hc
    · next heq =>
      simp only [Option.some.injEq] at hc
      subst hc
      refine ⟨h2, fun e he => ?_⟩
      have := hroute' e he
      omega
    · exact hr i c hc
  · change ((s.set _ c').map C.capacity).sum = (s.map C.capacity).sum
    rw [List.map_set, h3, ← List.map_set, List.set_getElem_self]
  · have q4 := q3 c'
    cases o with
    | none =>
      obtain ⟨h5, h6⟩ := h4
      refine ⟨?_, ?_⟩
      · rw [hasKey_perm q1, hasKey_append, not_or]; exact ⟨h5, hoth⟩
      · perms [q1, q4, h6]
    | some v =>
      obtain ⟨w, r, hw, p1, p2⟩ := h4
      refine ⟨w, r ++ others, hw, ?_, ?_⟩
      · perms [q1, p1]
      · perms [q4, p2]

/-! ## Exclusive -/

theorem exclusive_cell [LinearOrder K] {write : Bool} {F B : Block K V} {If Ib ef eb PreF}
    (hF : MapCore F If ef) (hB : MapCore B Ib eb) (xF : Admits F If ef) (xB : Exchanges B Ib eb)
    {op : F.State → K → (V → V) → Res (Option V × F.State)} (hop : SeenLaw write F op If ef PreF) :
    SeenLaw write (exclusive F B) (exclusiveAccess F B op)
      (fun s => (If s.1 ∧ Ib s.2) ∧ DistinctKeys (exclusiveElems ef eb s)) (exclusiveElems ef eb) PreF := by
  have after : ∀ {l l' r : List (K × V)} {k v w}, DistinctKeys l → l.Perm ((k, v) :: r) →
      l'.Perm ((k, w) :: r) → DistinctKeys l' := by
    intro l l' r k v w h p1 p2
    have := h.perm p1.symm
    refine DistinctKeys.perm (l := (k, w) :: r) ?_ p2
    unfold DistinctKeys at this ⊢
    simpa using this
  intro s k f ⟨h, hd⟩ hf
  obtain ⟨b, fr, c1, c2, c3, c4, c5, c6⟩ := hF.contains s.1 k h.1
  cases b with
  | true =>
    obtain ⟨o, f', h1, h2, h3, h4⟩ := hop fr k f c2 hf
    have hk := c6.1 rfl
    cases o with
    | none => rw [c5] at h4; exact absurd hk h4.1
    | some v =>
      obtain ⟨w, r, hw, p1, p2⟩ := h4
      have q1 : (exclusiveElems ef eb s).Perm ((k, v) :: (r ++ eb s.2)) := by
        rw [c5] at p1
        simp only [exclusiveElems]; perms [p1]
      have q2 : (exclusiveElems ef eb (f', s.2)).Perm ((k, w) :: (r ++ eb s.2)) := by
        simp only [exclusiveElems]; perms [p2]
      refine ⟨some v, (f', s.2), ?_, ⟨⟨h2, h.2⟩, after hd q1 q2⟩, ?_, w, r ++ eb s.2, hw, q1, q2⟩
      · simp only [exclusiveAccess, c1, Res.ok_bind, h1, if_true]; rfl
      · simp only [exclusive]; rw [h3, c3]
  | false =>
    have hnk : ¬ HasKey (ef s.1) k := fun hc => by simpa using c6.2 hc
    obtain ⟨o, bk, t1, t2, t3, t4⟩ := hB.take s.2 k h.2
    cases o with
    | none =>
      have q2 : (exclusiveElems ef eb (fr, bk)).Perm (exclusiveElems ef eb s) := by
        have := t4.2
        simp only [exclusiveElems, c5]; perms [this]
      refine ⟨none, (fr, bk), ?_, ⟨⟨c2, t2⟩, hd.perm q2⟩, by simp only [exclusive, c3, t3], ?_, q2⟩
      · simp only [exclusiveAccess, c1, Res.ok_bind, exclusiveDowngrade, t1]; rfl
      · simp only [exclusiveElems, hasKey_append, not_or]; exact ⟨hnk, t4.1⟩
    | some x =>
      obtain ⟨hx, tp⟩ := t4
      have d1 : DistinctKeys (ef fr ++ [x]) := hd.part (r := eb bk) (by
        simp only [exclusiveElems, c5]; perms [tp])
      obtain ⟨o1, f1, p1, p2, p3, p4⟩ := hF.pushFresh fr [x] c2 d1
      obtain ⟨a1, a2⟩ := xF.admits _ _ _ _ c2 d1 p1
      have d2 : DistinctKeys (eb bk ++ o1) := hd.part (r := ef f1) (by
        rw [c5] at p4
        simp only [exclusiveElems]; perms [tp, p4])
      have hback : ∃ b2, B.push bk o1 = .ok ([], b2) ∧ Ib b2 ∧
          B.capacity b2 = B.capacity s.2 ∧ (eb b2).Perm (eb bk ++ o1) := by
        obtain ⟨o2, b2, q1, q2, q3, q4⟩ := hB.pushFresh bk o1 t2 d2
        have : o2 = [] := by
          rcases small_list a1 with rfl | ⟨y, rfl⟩
          · exact xB.quiet _ _ _ t2 q1
          · exact xB.swaps _ _ _ _ _ _ _ h.2 t1 d2 q1
        subst this
        exact ⟨b2, q1, q2, q3.trans t3, by simpa using q4⟩
      obtain ⟨b2, q1, q2, q3, q4⟩ := hback
      have hdown : ∃ b3, exclusiveDowngrade F B (fr, s.2) k = .ok (true, (f1, b3)) ∧ Ib b3 ∧
          B.capacity b3 = B.capacity s.2 ∧ (eb b3).Perm (eb bk ++ o1) := by
        by_cases ho : o1 = []
        · refine ⟨bk, ?_, t2, t3, by simp [ho]⟩
          simp only [exclusiveDowngrade, t1, Res.ok_bind, p1, ho, if_true, Res.pure_eq]
        · refine ⟨b2, ?_, q2, q3, q4⟩
          simp only [exclusiveDowngrade, t1, Res.ok_bind, p1, ho, if_false, q1, if_true, Res.pure_eq]
      obtain ⟨b3, d1, d2, d3, d4⟩ := hdown
      obtain ⟨o, f2, u1, u2, u3, u4⟩ := hop f1 k f p2 hf
      have hk1 : HasKey (ef f1) k := ⟨x.2, by rw [← hx]; exact a2⟩
      cases o with
      | none => exact absurd hk1 u4.1
      | some v =>
        obtain ⟨w, r, hw, r1, r2⟩ := u4
        rw [c5] at p4
        have e1 : (exclusiveElems ef eb s).Perm ((k, v) :: (r ++ eb b3)) := by
          simp only [exclusiveElems]; perms [r1, d4, p4, tp]
        have e2 : (exclusiveElems ef eb (f2, b3)).Perm ((k, w) :: (r ++ eb b3)) := by
          simp only [exclusiveElems]; perms [r2]
        refine ⟨some v, (f2, b3), ?_, ⟨⟨u2, d2⟩, after hd e1 e2⟩, ?_, w, r ++ eb b3, hw, e1, e2⟩
        · simp only [exclusiveAccess, c1, Res.ok_bind, d1, if_true, u1]; rfl
        · simp only [exclusive]; rw [u3, p3, c3, d3]

/-! ## All shapes -/

namespace MapStack

variable [LinearOrder K]

/-- The invariant, with room (see `Room`). -/
def GInv : {V : Type} → (all : Bool) → (t : MapStack K V) → t.block.State → Prop
  | _, all, array sz _ _, s => (Array.Inv sz s ∧ DistinctKeys (Array.values s)) ∧
      (all = true → ∀ e, sz e ≤ Array.capacity s)
  | _, all, btree ord sz, s => (@BTree.Inv _ _ _ ord sz s ∧ DistinctKeys (BTree.map s)) ∧
      (all = true → ∀ e, sz e ≤ BTree.capacity s)
  | _, all, compressed z cd _ _, s =>
      (Compressed.Inv z cd s ∧ DistinctKeys (Compressed.elems z cd s)) ∧
      (all = true → ∀ e b, cd.enc e = some b →
        16 + b.length ≤ Compressed.capacity s ∧ 8 ≤ (Compressed.capacity s - 8) % b.length)
  | _, all, inclusive f b, s => inclusivePlainInv (Inv f) (GInv all b) (elems f) (elems b) s
  | _, _, exclusive f b, s =>
      (GInv true f s.1 ∧ GInv true b s.2) ∧ DistinctKeys (exclusiveElems (elems f) (elems b) s)
  | _, all, batch c, s => (batchInv (GInv all c) s ∧ DistinctKeys (batchElems (elems c) s)) ∧
      (all = true → 0 < (Byoc.batch c.block).capacity s)
  | _, all, associative hash c, s =>
    Associative.Inv hash (GInv all c) (elems c) s ∧ DistinctKeys (batchElems (elems c) s)
  | _, all, flushStopper c, s => GInv all c s
  | _, all, sequential c, s => GInv all c s
  | _, all, dyn _ c, s => GInv all (c s.1) s.2
  | _, all, decorator _ _ c, s => GInv all c s.1
  | _, all, profiler c, s => GInv all c s.1
  | _, all, remote c, s => GInv all c s

theorem ginv_inv {V : Type} (t : MapStack K V) : ∀ all s, t.GInv all s → t.Inv s := by
  induction t with
  | array sz srt srtS => exact fun _ _ h => h.1
  | btree ord sz => exact fun _ _ h => h.1
  | compressed z cd srt srtU => exact fun _ _ h => h.1
  | inclusive f b ihf ihb => exact fun all s h => ⟨h.1, ihb all _ h.2.1, h.2.2⟩
  | exclusive f b ihf ihb => exact fun all s h => ⟨⟨ihf true _ h.1.1, ihb true _ h.1.2⟩, h.2⟩
  | batch c ih => exact fun all s h => ⟨fun x hx => ih all x (h.1.1 x hx), h.1.2⟩
  | associative hash c ih =>
    exact fun all s h => ⟨⟨h.1.1, fun i x hx => ⟨ih all x (h.1.2 i x hx).1, (h.1.2 i x hx).2⟩⟩, h.2⟩
  | flushStopper c ih => exact ih
  | sequential c ih => exact ih
  | dyn ι c ih => exact fun all s h => ih _ all _ h
  | decorator D A c ih => exact fun all s h => ih all _ h
  | profiler c ih => exact fun all s h => ih all _ h
  | remote c ih => exact ih

theorem ginv_of {V : Type} (t : MapStack K V) : ∀ all s, t.Inv s → t.Room all s → t.GInv all s := by
  induction t with
  | array sz srt srtS => exact fun _ _ h r => ⟨h, r⟩
  | btree ord sz => exact fun _ _ h r => ⟨h, r⟩
  | compressed z cd srt srtU => exact fun _ _ h r => ⟨h, r⟩
  | inclusive f b ihf ihb => exact fun all s h r => ⟨h.1, ihb all _ h.2.1 r, h.2.2⟩
  | exclusive f b ihf ihb =>
    exact fun all s h r => ⟨⟨ihf true _ h.1.1 r.1, ihb true _ h.1.2 r.2⟩, h.2⟩
  | batch c ih => exact fun all s h r => ⟨⟨fun x hx => ih all x (h.1 x hx) (r.1 x hx), h.2⟩, r.2⟩
  | associative hash c ih =>
    exact fun all s h r => ⟨⟨h.1.1, fun i x hx =>
      ⟨ih all x (h.1.2 i x hx).1 (r x (List.mem_of_getElem? hx)), (h.1.2 i x hx).2⟩⟩, h.2⟩
  | flushStopper c ih => exact ih
  | sequential c ih => exact ih
  | dyn ι c ih => exact fun all s h r => ih _ all _ h r
  | decorator D A c ih => exact fun all s h r => ih all _ h r
  | profiler c ih => exact fun all s h r => ih all _ h r
  | remote c ih => exact ih

/-- The contract without `pop`. -/
theorem gmap {V : Type} (t : MapStack K V) : t.WF → ∀ all, MapCore t.block (t.GInv all) t.elems := by
  induction t with
  | array sz srt srtS =>
    exact fun _ all => ((Array.lawful sz srt srtS).toCore.map fun _ _ => trivial).withCapacity
      fun n => all = true → ∀ e, sz e ≤ n
  | @btree V ord sz =>
    exact fun _ all => ((@BTree.lawful _ _ _ ord sz).toCore.map fun _ h => h).withCapacity
      fun n => all = true → ∀ e, sz e ≤ n
  | compressed z cd srt srtU =>
    intro (h : cd.Law) all
    exact ((compressed z cd srt srtU).map h).1.withCapacity fun n =>
      all = true → ∀ e b, cd.enc e = some b → 16 + b.length ≤ n ∧ 8 ≤ (n - 8) % b.length
  | inclusive f b ihf ihb =>
    exact fun h all => inclusive_map (f.map h.1).1 (ihb h.2.1 all)
      (((b.map h.2.1).2 h.2.2).mono fun s hs => b.ginv_inv all s hs)
  | exclusive f b ihf ihb => exact fun h _ => exclusive_map (ihf h.1 true) (ihb h.2 true)
  | batch c ih => exact fun h all => (batch_map (ih h all)).withCapacity fun n => all = true → 0 < n
  | associative hash c ih => exact fun h all => associative_map (ih h all)
  | flushStopper c ih => exact fun h all => flushStopper_map (ih h all)
  | sequential c ih => exact ih
  | dyn ι c ih => exact fun h all => viaDefault_map (anyOf_map fun i => ih i (h i) all)
  | decorator D A c ih => exact fun h all => decorator_map D h.1 (ih h.2 all)
  | profiler c ih => exact fun h all => profiler_map (ih h all) (ih h all).fair
  | remote c ih => exact fun h all => remote_map (ih h all)

/-- `pop`. -/
theorem gpop {V : Type} (t : MapStack K V) : t.WF → t.NoAssociative → ∀ all,
    PopLaw t.block (t.GInv all) t.elems := by
  induction t with
  | array sz srt srtS =>
    exact fun _ _ all => (PopLaw.distinct (Array.lawful sz srt srtS).pop).withCapacity
      fun n => all = true → ∀ e, sz e ≤ n
  | @btree V ord sz =>
    exact fun _ _ all => (PopLaw.distinct (@BTree.lawful _ _ _ ord sz).pop).withCapacity
      fun n => all = true → ∀ e, sz e ≤ n
  | compressed z cd srt srtU =>
    intro (h : cd.Law) n all
    exact ((compressed z cd srt srtU).popLaw h n).withCapacity fun n =>
      all = true → ∀ e b, cd.enc e = some b → 16 + b.length ≤ n ∧ 8 ≤ (n - 8) % b.length
  | inclusive f b ihf ihb => exact fun h n all => inclusive_popLaw (ihb h.2.1 n all)
  | exclusive f b ihf ihb =>
    exact fun h n _ => exclusive_popLaw (f.gmap h.1 true) (b.gmap h.2 true) (ihf h.1 n.1 true)
      (ihb h.2 n.2 true)
  | batch c ih =>
    exact fun h n all => (batch_popLaw (c.gmap h all) (ih h n all)).withCapacity
      fun n => all = true → 0 < n
  | associative hash c ih => exact fun _ n => n.elim
  | flushStopper c ih => exact fun h n => ih h n
  | sequential c ih => exact ih
  | dyn ι c ih => exact fun h n all => anyOf_popLaw fun i => ih i (h i) (n i) all
  | decorator D A c ih => exact fun h n all => decorator_popLaw D h.1 (c.gmap h.2 all) (ih h.2 n all)
  | profiler c ih =>
    exact fun h n all => profiler_popLaw (c.gmap h all) (c.gmap h all).fair (ih h n all)
  | remote c ih => exact ih

/-- Elements of one size: a container with room accepts one element in exchange for at most one. -/
theorem gadmits {V : Type} (t : MapStack K V) : t.WF → t.Even →
    Admits t.block (t.GInv true) t.elems ∧
      (t.NoAssociative → Exchanges t.block (t.GInv true) t.elems) := by
  induction t with
  | array sz srt srtS =>
    rintro - ⟨n, hn⟩
    have x : Exchanges (MapStack.array sz srt srtS).block
        ((MapStack.array sz srt srtS).GInv true) Array.values :=
      ⟨⟨fun s out s' hs hp => by
          obtain ⟨t, ht⟩ := Array.quiet sz srt srtS s hs.1.1
          replace hp : (arrayBlock sz srt srtS).push s [] = .ok (out, s') := hp
          rw [ht] at hp
          cases hp; rfl,
        fun s x out s' hs => (Array.exchanges hn srt srtS).admits s x out s'
          ⟨hs.1.1, hn x ▸ hs.2 rfl x⟩⟩,
        fun s k x s1 y out s2 hs => (Array.exchanges hn srt srtS).swaps s k x s1 y out s2
          ⟨hs.1.1, hn x ▸ hs.2 rfl x⟩⟩
    exact ⟨x.toAdmits, fun _ => x⟩
  | @btree V ord sz =>
    rintro - ⟨n, hpos, hn⟩
    have x : Exchanges (MapStack.btree ord sz).block
        ((MapStack.btree ord sz).GInv true) BTree.map :=
      ⟨⟨fun s out s' hs hp => by
          obtain ⟨t, ht⟩ := @BTree.quiet _ _ _ ord sz (fun e => by rw [hn]; exact hpos) s hs.1.1
          replace hp : (@btreeBlock _ _ _ ord sz).push s [] = .ok (out, s') := hp
          rw [ht] at hp
          cases hp; rfl,
        fun s x out s' hs => (@BTree.exchanges _ _ _ ord _ _ hn hpos).admits s x out s'
          ⟨hs.1.1, hn x ▸ hs.2 rfl x⟩⟩,
        fun s k x s1 y out s2 hs => (@BTree.exchanges _ _ _ ord _ _ hn hpos).swaps s k x s1 y out s2
          ⟨hs.1.1, hn x ▸ hs.2 rfl x⟩⟩
    exact ⟨x.toAdmits, fun _ => x⟩
  | @compressed W z cd srt srtU =>
    rintro (h : cd.Law) ⟨n, hn⟩
    by_cases hne : Nonempty (K × W)
    · obtain ⟨e⟩ := hne
      obtain ⟨b, h1, h2⟩ := hn e
      have x : Exchanges (MapStack.compressed z cd srt srtU).block
          ((MapStack.compressed z cd srt srtU).GInv true) (Compressed.elems z cd) :=
        (Compressed.exchanges h hn srt srtU).mono fun s hs => ⟨hs.1.1, by
          have := hs.2 rfl e b h1
          rw [h2] at this
          exact this⟩
      exact ⟨x.toAdmits, fun _ => x⟩
    · have x : Exchanges (MapStack.compressed z cd srt srtU).block
          ((MapStack.compressed z cd srt srtU).GInv true) (Compressed.elems z cd) :=
        ⟨⟨fun s out s' _ _ => List.eq_nil_iff_forall_not_mem.2 fun e _ => hne ⟨e⟩,
          fun _ x => absurd ⟨x⟩ hne⟩, fun _ _ x => absurd ⟨x⟩ hne⟩
      exact ⟨x.toAdmits, fun _ => x⟩
  | inclusive f b ihf ihb =>
    intro h e
    obtain ⟨a, x⟩ := ihb h.2.1 e
    exact ⟨inclusive_admits (f.map h.1).1 (b.gmap h.2.1 true) a,
      fun n => inclusive_exchanges (f.map h.1).1 (b.gmap h.2.1 true) (x n)⟩
  | exclusive f b ihf ihb =>
    intro h e
    obtain ⟨af, xf⟩ := ihf h.1 e.1
    obtain ⟨ab, xb⟩ := ihb h.2 e.2
    exact ⟨exclusive_admits (f.gmap h.1 true) (b.gmap h.2 true) af ab,
      fun n => exclusive_exchanges (f.gmap h.1 true) (b.gmap h.2 true) (xf n.1) (xb n.2)⟩
  | batch c ih =>
    intro h e
    obtain ⟨a, x⟩ := ih h e
    exact ⟨(batch_admits (c.gmap h true) a).mono fun s hs => ⟨hs.1, hs.2 rfl⟩,
      fun n => (batch_exchanges (c.gmap h true) (x n)).mono fun s hs => ⟨hs.1, hs.2 rfl⟩⟩
  | associative hash c ih =>
    exact fun h e => ⟨associative_admits (c.gmap h true) (ih h e).1, fun n => n.elim⟩
  | flushStopper c ih =>
    exact fun h e => ⟨flushStopper_admits (ih h e).1, fun n => flushStopper_exchanges ((ih h e).2 n)⟩
  | sequential c ih => exact ih
  | dyn ι c ih =>
    exact fun h e => ⟨viaDefault_admits (anyOf_admits fun i => (ih i (h i) (e i)).1),
      fun n => viaDefault_exchanges (anyOf_exchanges fun i => (ih i (h i) (e i)).2 (n i))⟩
  | decorator D A c ih =>
    exact fun h e => ⟨decorator_admits D h.1 (ih h.2 e).1,
      fun n => decorator_exchanges D h.1 ((ih h.2 e).2 n)⟩
  | profiler c ih =>
    exact fun h e => ⟨profiler_admits (ih h e).1, fun n => profiler_exchanges ((ih h e).2 n)⟩
  | remote c ih =>
    exact fun h e => ⟨remote_admits (ih h e).1, fun n => remote_exchanges ((ih h e).2 n)⟩

/-- `get` and `get_mut`. -/
theorem gcell {V : Type} (t : MapStack K V) : t.WF → t.Gettable → ∀ all,
    SeenLaw false t.block t.gets.get (t.GInv all) t.elems (t.Allows false) ∧
    SeenLaw true t.block t.gets.getMut (t.GInv all) t.elems (t.Allows true) := by
  induction t with
  | array sz srt srtS =>
    have h := Array.getLawful sz srt srtS
    exact fun _ _ all => ⟨((h.get.cell false).distinct).withCapacity fun n => all = true → ∀ e, sz e ≤ n,
      ((h.getMut.cell true).distinct).withCapacity fun n => all = true → ∀ e, sz e ≤ n⟩
  | @btree V ord sz =>
    intro _ hpos all
    have h := @BTree.getLawful _ _ _ ord sz hpos
    exact ⟨((h.get.cell false).distinct).withCapacity fun n => all = true → ∀ e, sz e ≤ n,
      ((h.getMut.cell true).distinct).withCapacity fun n => all = true → ∀ e, sz e ≤ n⟩
  | compressed z cd srt srtU =>
    intro (h : cd.Law) _ all
    exact ⟨(((Compressed.get_cell (z := z) h srt srtU).distinct).withCapacity fun n =>
        all = true → ∀ e b, cd.enc e = some b → 16 + b.length ≤ n ∧ 8 ≤ (n - 8) % b.length).mono
          fun _ _ => trivial,
      (((Compressed.getMut_cell (z := z) h srt srtU).distinct).withCapacity fun n =>
        all = true → ∀ e b, cd.enc e = some b → 16 + b.length ≤ n ∧ 8 ≤ (n - 8) % b.length).mono
          fun _ hf => hf rfl⟩
  | inclusive f b ihf ihb => exact fun _ n => n.elim
  | exclusive f b ihf ihb =>
    intro h g _
    obtain ⟨c1, c2⟩ := ihf h.1 g.1 true
    have xf := (f.gadmits h.1 g.2.1).1
    have xb := (b.gadmits h.2 g.2.2.1).2 g.2.2.2
    exact ⟨exclusive_cell (f.gmap h.1 true) (b.gmap h.2 true) xf xb c1,
      exclusive_cell (f.gmap h.1 true) (b.gmap h.2 true) xf xb c2⟩
  | batch c ih =>
    intro h g all
    obtain ⟨c1, c2⟩ := ih h g all
    exact ⟨((batch_cell c1).distinct).withCapacity fun n => all = true → 0 < n,
      ((batch_cell c2).distinct).withCapacity fun n => all = true → 0 < n⟩
  | associative hash c ih =>
    intro h g all
    obtain ⟨c1, c2⟩ := ih h g all
    exact ⟨(associative_cell hash c1).distinct, (associative_cell hash c2).distinct⟩
  | flushStopper c ih => exact ih
  | sequential c ih => exact ih
  | dyn ι c ih =>
    exact fun h g all => ⟨anyOf_cell fun i => (ih i (h i) (g i) all).1,
      anyOf_cell fun i => (ih i (h i) (g i) all).2⟩
  | decorator D A c ih =>
    intro h g all
    obtain ⟨c1, c2⟩ := ih h.2 g.2 all
    exact ⟨decorator_cell (A := A) g.1 c1, decorator_cell (A := A) g.1 c2⟩
  | profiler c ih =>
    intro h g all
    obtain ⟨c1, c2⟩ := ih h g all
    exact ⟨profiler_cell c1 fun st o => ({ st with get := st.get.add 1 0 } : Stats).hitOrMiss o.isSome,
      profiler_cell c2 fun st o => ({ st with getMut := st.getMut.add 1 0 } : Stats).hitOrMiss o.isSome⟩
  | remote c ih => exact fun _ n => n.elim

end MapStack
end Byoc
