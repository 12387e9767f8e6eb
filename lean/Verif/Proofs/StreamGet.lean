import Verif.Model.StreamGet
import Verif.Proofs.StreamStack
import Verif.Proofs.MapGet
import Verif.Props.StreamProps

/-! # `get` and `get_mut` through containers nested over serialised storage: proofs -/

namespace Byoc

variable {K V : Type}

/-- An access that, if `sure`, returns, and finds what is inside; in any case, if it returns, it changed at most the
value it found. -/
def MayLaw (sure : Prop) (write : Bool) (B : Block K V)
    (op : B.State → K → (V → V) → Res (Option V × B.State))
    (I : B.State → Prop) (e : B.State → List (K × V)) (PreF : (V → V) → Prop) : Prop :=
  ∀ s k f, I s → PreF f → (¬ sure ∧ op s k f = .panic) ∨
    ∃ o s', op s k f = .ok (o, s') ∧ I s' ∧ B.capacity s' = B.capacity s ∧
    match o with
    | none => (sure → ¬ HasKey (e s) k) ∧ (e s').Perm (e s)
    | some v => ∃ w rest, Seen write f v w ∧ (e s).Perm ((k, v) :: rest) ∧ (e s').Perm ((k, w) :: rest)

theorem SeenLaw.may {write : Bool} {B : Block K V} {op : B.State → K → (V → V) → Res (Option V × B.State)}
    {I e PreF} (h : SeenLaw write B op I e PreF) (sure : Prop) : MayLaw sure write B op I e PreF := by
  intro s k f hs hf
  obtain ⟨o, s', h1, h2, h3, h4⟩ := h s k f hs hf
  refine .inr ⟨o, s', h1, h2, h3, ?_⟩
  cases o with
  | none => exact ⟨fun _ => h4.1, h4.2⟩
  | some v => exact h4

theorem MayLaw.mono {sure : Prop} {write : Bool} {B : Block K V}
    {op : B.State → K → (V → V) → Res (Option V × B.State)} {I e} {PreF PreF' : (V → V) → Prop}
    (h : MayLaw sure write B op I e PreF) (hp : ∀ f, PreF' f → PreF f) :
    MayLaw sure write B op I e PreF' :=
  fun s k f hs hf => h s k f hs (hp f hf)

/-! ## Leaves -/

theorem byteStream_get_cell {R : Type} [LinearOrder K] [LinearOrder R] (cd : Codec (K × V)) (rank : V → R) :
    SeenLaw false (byteStreamBy cd rank) (ByteStream.get cd) (ByteStream.Inv cd) (ByteStream.stored cd)
      (fun _ => True) := by
  intro (s : ByteStream) k f hs _
  obtain ⟨o, h1, h2⟩ := ByteStream.get_spec s hs k f
  refine ⟨o, s, h1, hs, rfl, ?_⟩
  cases o with
  | none => exact ⟨h2, List.Perm.refl _⟩
  | some v =>
    obtain ⟨i, hi⟩ := List.mem_iff_getElem?.1 h2
    obtain ⟨r, r1, -⟩ := set_perm _ i (k, v) (k, v) hi
    exact ⟨v, r, .inr ⟨rfl, rfl⟩, r1, r1⟩

theorem byteStream_getMut_cell {R : Type} [LinearOrder K] [LinearOrder R] (cd : Codec (K × V)) (rank : V → R)
    (hsmall : ByteStream.Small cd) :
    SeenLaw true (byteStreamBy cd rank) (ByteStream.getMut cd) (ByteStream.Inv cd) (ByteStream.stored cd)
      (ByteStream.SameClass cd) := by
  intro (s : ByteStream) k f hs hf
  obtain ⟨o, s', h1, h2, h3, h4⟩ := ByteStream.getMut_spec hsmall s hs k f hf
  refine ⟨o, s', h1, h2, h3, ?_⟩
  cases o with
  | none => exact h4
  | some v => obtain ⟨r, p1, p2⟩ := h4; exact ⟨f v, r, .inl rfl, p1, p2⟩

theorem sameClass_of {cd : Codec (K × V)} (hsmall : StreamProps.SmallCodec cd) {f : V → V}
    (hf : ∀ k v c, StreamProps.IsChunkOf cd (k, v) c → StreamProps.IsChunkOf cd (k, f v) c) :
    ByteStream.SameClass cd f := by
  intro i k v hc
  obtain ⟨b, h1, h2⟩ := hc
  obtain ⟨j, hj1, hj2, hj3⟩ := StreamProps.isChunkOf_csz hsmall (k, v) (by rw [h1]; simp)
  have hcs : ByteStream.csz cd (k, v) = 2 ^ i := ByteStream.Class.csz ⟨b, h1, h2⟩
  have h3 := hf k v _ hj1
  have hne : cd.enc (k, f v) ≠ none := by
    obtain ⟨b, i, h1, -⟩ := h3
    rw [h1]; simp
  obtain ⟨j', hj1', hj2', hj3'⟩ := StreamProps.isChunkOf_csz hsmall (k, f v) hne
  have := h3.unique hj1'
  rw [hcs, hj2'] at this
  have : i = j' := Nat.pow_right_injective (le_refl 2) this
  rw [this]; exact hj3'

/-! ## Wrappers -/

section
variable {sure : Prop} {write : Bool}

theorem profiler_may {C : Block K V} {I ec PreF}
    {op : C.State → K → (V → V) → Res (Option V × C.State)} (hop : MayLaw sure write C op I ec PreF)
    (upd : Stats → Option V → Stats) :
    MayLaw sure write (profiler C) (fun s k f => do
      let (o, c) ← op s.1 k f
      return (o, (c, upd s.2 o))) (fun s => I s.1) (fun s => ec s.1) PreF := by
  intro s k f h hf
  rcases hop s.1 k f h hf with ⟨hs, hp⟩ | ⟨o, s', h1, h2, h3, h4⟩
  · exact .inl ⟨hs, by simp only [hp]; rfl⟩
  · exact .inr ⟨o, (s', upd s.2 o), by simp only [h1, Res.ok_bind]; rfl, h2, h3, h4⟩

theorem decorator_may {D : Decoration V} {A : Access D} (hA : A.Faithful)
    {C : Block K D.Item} {op : C.State → K → (D.Item → D.Item) → Res (Option D.Item × C.State)}
    {I : C.State → Prop} {ec : C.State → List (K × D.Item)}
    {PreF : (D.Item → D.Item) → Prop} (hop : MayLaw sure write C op I ec PreF) :
    MayLaw sure write (decorator D C) (fun s k f => do
        let (o, c) ← op s.1 k (A.access s.2 f)
        return (o.map D.unwrap, (c, if o.isSome then A.tick s.2 else s.2)))
      (fun s => I s.1) (decoratorElems D ec) (fun f => ∀ fac, PreF (A.access fac f)) := by
  intro s k f h hf
  rcases hop s.1 k (A.access s.2 f) h (hf s.2) with ⟨hs, hp⟩ | ⟨o, s', h1, h2, h3, h4⟩
  · exact .inl ⟨hs, by simp only [hp]; rfl⟩
  refine .inr ⟨o.map D.unwrap, (s', if o.isSome then A.tick s.2 else s.2),
    by simp only [h1, Res.ok_bind]; rfl, h2, h3, ?_⟩
  cases o with
  | none =>
    simp only [Option.map_none, decoratorElems, hasKey_strip] at h4 ⊢
    exact ⟨h4.1, h4.2.map _⟩
  | some i =>
    obtain ⟨j, r, hj, p1, p2⟩ := h4
    refine ⟨D.unwrap j, r.map (strip D), ?_, ?_, ?_⟩
    · rcases hj with rfl | ⟨hw, rfl⟩
      · exact .inl (hA s.2 f i)
      · exact .inr ⟨hw, rfl⟩
    · simpa [strip, decoratorElems] using p1.map (strip D)
    · simpa [strip, decoratorElems] using p2.map (strip D)

theorem anyOf_may {ι : Type} {B : ι → Block K V}
    {op : ∀ i, (B i).State → K → (V → V) → Res (Option V × (B i).State)}
    {I : ∀ i, (B i).State → Prop} {e : ∀ i, (B i).State → List (K × V)} {PreF : ι → (V → V) → Prop}
    (h : ∀ i, MayLaw sure write (B i) (op i) (I i) (e i) (PreF i)) :
    MayLaw sure write (anyOf B) (fun s k f => do let (o, c) ← op s.1 s.2 k f; return (o, ⟨s.1, c⟩))
      (fun s => I s.1 s.2) (fun s => e s.1 s.2) (fun f => ∀ i, PreF i f) := by
  intro s k f hs hf
  rcases h s.1 s.2 k f hs (hf s.1) with ⟨hs, hp⟩ | ⟨o, c, h1, h2, h3, h4⟩
  · exact .inl ⟨hs, by simp only [hp]; rfl⟩
  · exact .inr ⟨o, ⟨s.1, c⟩, by simp [h1], h2, h3, h4⟩

theorem batchAccess_may {C : Block K V} {I ec PreF}
    {op : C.State → K → (V → V) → Res (Option V × C.State)} (hop : MayLaw sure write C op I ec PreF)
    (k : K) (f : V → V) (hf : PreF f) : ∀ s : List C.State, (∀ c ∈ s, I c) →
    (¬ sure ∧ batchAccess op s k f = .panic) ∨
    ∃ o s', batchAccess op s k f = .ok (o, s') ∧ (∀ c ∈ s', I c) ∧
      s'.map C.capacity = s.map C.capacity ∧
      match o with
      | none => (sure → ¬ HasKey (batchElems ec s) k) ∧ (batchElems ec s').Perm (batchElems ec s)
      | some v => ∃ w r, Seen write f v w ∧ (batchElems ec s).Perm ((k, v) :: r) ∧
          (batchElems ec s').Perm ((k, w) :: r) := by
  intro s
  induction s with
  | nil => intro _; exact .inr ⟨none, [], rfl, by simp, rfl, by simp [HasKey], by simp⟩
  | cons c cs ih =>
    intro h
    rcases hop c k f (h c (by simp)) hf with ⟨hs, hp⟩ | ⟨o, c', h1, h2, h3, h4⟩
    · exact .inl ⟨hs, by simp only [batchAccess, hp]; rfl⟩
    cases o with
    | some v =>
      obtain ⟨w, r, hw, p1, p2⟩ := h4
      refine .inr ⟨some v, c' :: cs, by simp only [batchAccess, h1, Res.ok_bind]; rfl, ?_, by simp [h3], w,
        r ++ batchElems ec cs, hw, ?_, ?_⟩
      · intro x hx
        rcases List.mem_cons.1 hx with rfl | hx
        · exact h2
        · exact h x (by simp [hx])
      · simp only [batchElems_cons]; perms [p1]
      · simp only [batchElems_cons]; perms [p2]
    | none =>
      rcases ih (fun x hx => h x (by simp [hx])) with ⟨hs, hp⟩ | ⟨o, cs', g1, g2, g3, g4⟩
      · exact .inl ⟨hs, by simp only [batchAccess, h1, Res.ok_bind, hp]; rfl⟩
      refine .inr ⟨o, c' :: cs', by simp only [batchAccess, h1, Res.ok_bind, g1]; rfl, ?_, by simp [h3, g3], ?_⟩
      · intro x hx
        rcases List.mem_cons.1 hx with rfl | hx
        · exact h2
        · exact g2 x hx
      · have h5 := h4.2
        cases o with
        | none =>
          refine ⟨?_, ?_⟩
          · intro hs; simp only [batchElems_cons, hasKey_append, not_or]; exact ⟨h4.1 hs, g4.1 hs⟩
          · have g5 := g4.2
            simp only [batchElems_cons]; perms [h5, g5]
        | some v =>
          obtain ⟨w, r, hw, p1, p2⟩ := g4
          refine ⟨w, ec c ++ r, hw, ?_, ?_⟩
          · simp only [batchElems_cons]; perms [p1]
          · simp only [batchElems_cons]; perms [p2, h5]

theorem batch_may {C : Block K V} {I ec PreF}
    {op : C.State → K → (V → V) → Res (Option V × C.State)} (hop : MayLaw sure write C op I ec PreF) :
    MayLaw sure write (batch C) (batchAccess op) (batchInv I) (batchElems ec) PreF := by
  intro s k f h hf
  rcases batchAccess_may hop k f hf s h with hp | ⟨o, s', h1, h2, h3, h4⟩
  · exact .inl hp
  · exact .inr ⟨o, s', h1, h2, congrArg List.sum h3, h4⟩

theorem associative_may (hash : K → Nat) {C : Block K V} {I ec PreF}
    {op : C.State → K → (V → V) → Res (Option V × C.State)} (hop : MayLaw sure write C op I ec PreF) :
    MayLaw sure write (associative hash C) (associativeAccess hash op) (Associative.Inv hash I ec)
      (batchElems ec) PreF := by
  intro (s : List C.State) k f h hf
  obtain ⟨hpos, hr⟩ := h
  have hlt : hash k % s.length < s.length := Nat.mod_lt _ hpos
  have hget : s[hash k % s.length]? = some s[hash k % s.length] := List.getElem?_eq_getElem hlt
  obtain ⟨hI, hroute⟩ := hr _ _ hget
  rcases hop _ k f hI hf with ⟨hs, hp⟩ | ⟨o, c', h1, h2, h3, h4⟩
  · refine .inl ⟨hs, ?_⟩
    simp only [associativeAccess, Associative.set, Nat.ne_of_gt hpos, if_false, Res.ok_bind, hget,
      Res.unwrap_some, hp]
    rfl
  right
  obtain ⟨others, q1, q2, q3⟩ := batchElems_set ec s _ _ hget
  have hoth : ¬ HasKey others k := by
    rintro ⟨v, hv⟩
    obtain ⟨j, d, hj, hd, he⟩ := q2 _ hv
    have := (hr j d hd).2 _ he
    simp at this
    exact hj this.symm
  have hroute' : ∀ e ∈ ec c', hash e.1 % s.length = hash k % s.length := by
    intro e he
    cases o with
    | none =>
      have := hroute e (h4.2.mem_iff.1 he)
      simpa using this
    | some v =>
      obtain ⟨w, r, -, p1, p2⟩ := h4
      rcases List.mem_cons.1 (p2.mem_iff.1 he) with rfl | he
      · rfl
      · have := hroute e (p1.mem_iff.2 (List.mem_cons_of_mem _ he))
        simpa using this
  refine ⟨o, s.set (hash k % s.length) c', ?_, ⟨by simpa using hpos, ?_⟩, ?_, ?_⟩
  · simp only [associativeAccess, Associative.set, Nat.ne_of_gt hpos, if_false, Res.ok_bind, hget,
      Res.unwrap_some, h1]
    rfl
  · intro i c hc
    rw [List.length_set]
    rw [List.getElem?_set] at hc
    split at hc
    · next heq =>
      simp only [Option.some.injEq] at hc
      subst hc
      refine ⟨h2, fun e he => ?_⟩
      have := hroute' e he
      omega
    · exact hr i c hc
  · change ((s.set _ c').map C.capacity).sum = (s.map C.capacity).sum
    rw [List.map_set, h3, ← List.map_set, List.set_getElem_self]
  · have q4 := q3 c'
    cases o with
    | none =>
      obtain ⟨h5, h6⟩ := h4
      refine ⟨?_, ?_⟩
      · intro hs; rw [hasKey_perm q1, hasKey_append, not_or]; exact ⟨h5 hs, hoth⟩
      · perms [q1, q4, h6]
    | some v =>
      obtain ⟨w, r, hw, p1, p2⟩ := h4
      refine ⟨w, r ++ others, hw, ?_, ?_⟩
      · perms [q1, p1]
      · perms [q4, p2]

/-- An `Exclusive`: the access may panic, and may miss what its front has not room for. -/
theorem exclusive_may [LinearOrder K] {F B : Block K V} {If : F.State → Prop} {Ib : B.State → Prop}
    {ef : F.State → List (K × V)} {eb : B.State → List (K × V)} {PreF} {fl : Bool} (hs : ¬ sure)
    (hF : Core (patch fl F) If ef (fun _ => True)) (hB : Core (patch fl B) Ib eb (fun _ => True))
    {op : F.State → K → (V → V) → Res (Option V × F.State)} (hop : MayLaw sure write F op If ef PreF) :
    MayLaw sure write (exclusive F B) (exclusiveAccess F B op) (fun s => If s.1 ∧ Ib s.2)
      (exclusiveElems ef eb) PreF := by
  intro s k f h hf
  obtain ⟨b, fr, c1, c2, c3, c4, c5, c6⟩ := hF.contains s.1 k h.1
  replace c1 : F.contains s.1 k = .ok (b, fr) := c1
  replace c3 : F.capacity fr = F.capacity s.1 := c3
  have use : ∀ (f1 : F.State) (b1 : B.State), If f1 → Ib b1 → F.capacity f1 = F.capacity s.1 →
      B.capacity b1 = B.capacity s.2 → (ef f1 ++ eb b1).Perm (ef s.1 ++ eb s.2) →
      exclusiveAccess F B op s k f = (do let (o, fr) ← op f1 k f; return (o, (fr, b1))) →
      (¬ sure ∧ exclusiveAccess F B op s k f = .panic) ∨
        ∃ o s', exclusiveAccess F B op s k f = .ok (o, s') ∧ (If s'.1 ∧ Ib s'.2) ∧
        (exclusive F B).capacity s' = (exclusive F B).capacity s ∧
        match o with
        | none => (sure → ¬ HasKey (exclusiveElems ef eb s) k) ∧
            (exclusiveElems ef eb s').Perm (exclusiveElems ef eb s)
        | some v => ∃ w rest, Seen write f v w ∧ (exclusiveElems ef eb s).Perm ((k, v) :: rest) ∧
            (exclusiveElems ef eb s').Perm ((k, w) :: rest) := by
    intro f1 b1 i1 i2 e1 e2 hp he
    rw [he]
    rcases hop f1 k f i1 hf with ⟨_, q⟩ | ⟨o, f2, h1, h2, h3, h4⟩
    · exact .inl ⟨hs, by simp only [q]; rfl⟩
    · refine .inr ⟨o, (f2, b1), by simp only [h1, Res.ok_bind]; rfl, ⟨h2, i2⟩, ?_, ?_⟩
      · simp only [exclusive, h3, e1, e2]
      · cases o with
        | none =>
          have := h4.2
          exact ⟨fun h0 => absurd h0 hs, by simp only [exclusiveElems]; perms [this, hp]⟩
        | some v =>
          obtain ⟨w, r, hw, p1, p2⟩ := h4
          refine ⟨w, r ++ eb b1, hw, ?_, ?_⟩
          · simp only [exclusiveElems]; perms [p1, hp]
          · simp only [exclusiveElems]; perms [p2]
  cases b with
  | true =>
    refine use fr s.2 c2 h.2 c3 rfl (by rw [c5]) ?_
    simp only [exclusiveAccess, c1, Res.ok_bind, if_true]
  | false =>
    obtain ⟨o, bk, t1, t2, t3, t4⟩ := hB.take s.2 k h.2
    replace t1 : B.take s.2 k = .ok (o, bk) := t1
    replace t3 : B.capacity bk = B.capacity s.2 := t3
    cases o with
    | none =>
      have q2 : (exclusiveElems ef eb (fr, bk)).Perm (exclusiveElems ef eb s) := by
        have := t4.2
        simp only [exclusiveElems, c5]; perms [this]
      refine .inr ⟨none, (fr, bk), ?_, ⟨c2, t2⟩, by simp only [exclusive, c3, t3], fun h0 => absurd h0 hs, q2⟩
      simp only [exclusiveAccess, c1, Res.ok_bind, exclusiveDowngrade, t1]; rfl
    | some x =>
      obtain ⟨hx, tp⟩ := t4
      obtain ⟨o1, f1, p1, p2, p3, p4⟩ := hF.push fr [x] c2 trivial
      replace p1 : F.push fr [x] = .ok (o1, f1) := p1
      replace p3 : F.capacity f1 = F.capacity fr := p3
      by_cases ho : o1 = []
      · refine use f1 bk p2 t2 (p3.trans c3) t3 ?_ ?_
        · rw [c5, ho] at p4
          perms [p4, tp]
        · simp only [exclusiveAccess, c1, Res.ok_bind, exclusiveDowngrade, t1, p1, ho, if_true, Res.pure_eq]
          rfl
      · obtain ⟨o2, b2, q1, q2, q3, q4⟩ := hB.push bk o1 t2 trivial
        replace q1 : B.push bk o1 = .ok (o2, b2) := q1
        replace q3 : B.capacity b2 = B.capacity bk := q3
        by_cases ho2 : o2 = []
        · refine use f1 b2 p2 q2 (p3.trans c3) (q3.trans t3) ?_ ?_
          · rw [c5] at p4
            rw [ho2] at q4
            perms [p4, tp, q4]
          · simp only [exclusiveAccess, c1, Res.ok_bind, exclusiveDowngrade, t1, p1, ho, if_false, q1, ho2,
              if_true, Res.pure_eq]
            rfl
        · refine .inl ⟨hs, ?_⟩
          simp only [exclusiveAccess, c1, Res.ok_bind, exclusiveDowngrade, t1, p1, ho, if_false, q1, ho2]
          rfl

end

namespace StoreStack

/-- Values may be changed so: written values keep the room their element takes, values read in place too. -/
def Allows (write : Bool) : {V : Type} → (t : StoreStack K V) → t.Accesses → (V → V) → Prop
  | _, array sz _ _, _, f => ∀ k v, sz (k, f v) = sz (k, v)
  | _, stream _ cd _, _, f =>
      write = true → ∀ k v c, StreamProps.IsChunkOf cd (k, v) c → StreamProps.IsChunkOf cd (k, f v) c
  | _, compressed _ cd _ _, _, f => write = true → ∀ k v, cd.enc (k, v) ≠ none →
      cd.enc (k, f v) ≠ none ∧ cd.size (k, f v) ≤ cd.size (k, v)
  | _, exclusive t _, a, f => Allows write t a f
  | _, batch c, a, f => Allows write c a f
  | _, associative _ c, a, f => Allows write c a f
  | _, flushStopper c, a, f => Allows write c a f
  | _, sequential c, a, f => Allows write c a f
  | _, dyn _ c, a, f => ∀ i, Allows write (c i) (a i) f
  | _, decorator _ c, a, f => ∀ fac, Allows write c a.2 (a.1.access fac f)
  | _, profiler c, a, f => Allows write c a f

/-- Decorations show the value as written. -/
def Faithful : {V : Type} → (t : StoreStack K V) → t.Accesses → Prop
  | _, array _ _ _, _ => True
  | _, stream _ _ _, _ => True
  | _, compressed _ _ _ _, _ => True
  | _, exclusive t _, a => Faithful t a
  | _, batch c, a => Faithful c a
  | _, associative _ c, a => Faithful c a
  | _, flushStopper c, a => Faithful c a
  | _, sequential c, a => Faithful c a
  | _, dyn _ c, a => ∀ i, Faithful (c i) (a i)
  | _, decorator _ c, a => a.1.Faithful ∧ Faithful c a.2
  | _, profiler c, a => Faithful c a

variable [LinearOrder K]

theorem may {V : Type} (sure : Prop) (t : StoreStack K V) : t.WF → (sure → t.NoExclusive) →
    ∀ a : t.Accesses, t.Faithful a →
    MayLaw sure false t.block (t.gets a).get t.Inv t.elems (t.Allows false a) ∧
    MayLaw sure true t.block (t.gets a).getMut t.Inv t.elems (t.Allows true a) := by
  induction t with
  | array sz srt srtS =>
    intro _ _ a _
    exact ⟨((Array.getLawful sz srt srtS).get.cell false).may sure,
      ((Array.getLawful sz srt srtS).getMut.cell true).may sure⟩
  | stream ord cd rank =>
    intro w _ a _
    exact ⟨((byteStream_get_cell cd rank).mono fun _ _ => trivial).may sure,
      ((byteStream_getMut_cell cd rank w).mono fun _ h => sameClass_of w (h rfl)).may sure⟩
  | compressed z cd srt srtU =>
    intro w _ a _
    exact ⟨((Compressed.get_cell w srt srtU).mono fun _ _ => trivial).may sure,
      ((Compressed.getMut_cell w srt srtU).mono fun _ h => h rfl).may sure⟩
  | exclusive f b ihf ihb =>
    intro w n a ha
    have hs : ¬ sure := fun h => n h
    have hF := core false f w.1 (fun h => nomatch h)
    have hB := core false b w.2 (fun h => nomatch h)
    have := ihf w.1 (fun h => (hs h).elim) a ha
    exact ⟨exclusive_may hs hF hB this.1, exclusive_may hs hF hB this.2⟩
  | batch c ih => intro w n a ha; exact ⟨batch_may (ih w n a ha).1, batch_may (ih w n a ha).2⟩
  | associative hash c ih =>
    intro w n a ha; exact ⟨associative_may hash (ih w n a ha).1, associative_may hash (ih w n a ha).2⟩
  | flushStopper c ih => exact ih
  | sequential c ih => exact ih
  | dyn ι c ih =>
    intro w n a ha
    exact ⟨anyOf_may fun i => (ih i (w i) (fun h => n h i) (a i) (ha i)).1,
      anyOf_may fun i => (ih i (w i) (fun h => n h i) (a i) (ha i)).2⟩
  | decorator D c ih =>
    intro w n a ha
    exact ⟨decorator_may ha.1 (ih w.2 n a.2 ha.2).1, decorator_may ha.1 (ih w.2 n a.2 ha.2).2⟩
  | profiler c ih =>
    intro w n a ha
    have h := ih w n a ha
    exact ⟨profiler_may h.1 fun st o => ({ st with get := st.get.add 1 0 } : Stats).hitOrMiss o.isSome,
      profiler_may h.2 fun st o => ({ st with getMut := st.getMut.add 1 0 } : Stats).hitOrMiss o.isSome⟩

end StoreStack
end Byoc
