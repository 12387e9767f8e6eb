import Verif.Model.Get
import Verif.Proofs.Array
import Verif.Proofs.BTree
import Verif.Proofs.Exclusive
import Verif.Proofs.Associative

/-! # `get` and `get_mut` respect their contract -/

namespace Byoc

variable {K V : Type}

theorem hasKey_of_perm_cons {l r : List (K × V)} {k : K} {v : V} (h : l.Perm ((k, v) :: r)) :
    HasKey l k := ⟨v, h.mem_iff.2 (by simp)⟩

/-- Replace the element at index `i`. -/
theorem set_perm {E : Type} : ∀ (l : List E) (i : Nat) (e e' : E), l[i]? = some e →
    ∃ r, l.Perm (e :: r) ∧ (l.set i e').Perm (e' :: r) := by
  intro l
  induction l with
  | nil => intro i e e' h; simp at h
  | cons a l ih =>
    intro i e e' h
    cases i with
    | zero =>
      simp at h; subst h
      exact ⟨l, List.Perm.refl _, by simp⟩
    | succ i =>
      obtain ⟨r, h1, h2⟩ := ih i e e' (by simpa using h)
      refine ⟨a :: r, ?_, ?_⟩
      · perms [h1]
      · rw [List.set_cons_succ]; perms [h2]

theorem Array.getMut_spec [DecidableEq K] (sz : K × V → Nat) (a : Array K V) (k : K) (f : V → V)
    (h : Array.Inv sz a) (hf : ∀ k v, sz (k, f v) = sz (k, v)) :
    ∃ o a', Array.getMut a k f = (o, a') ∧ Array.Inv sz a' ∧ a'.capacity = a.capacity ∧
    match o with
    | none => ¬ HasKey a.values k ∧ a' = a
    | some v => ∃ i, findKey a.values k = some i ∧ a.values[i]? = some (k, v) ∧
        a'.values = a.values.set i (k, f v) ∧
        ∃ rest, a.values.Perm ((k, v) :: rest) ∧ a'.values.Perm ((k, f v) :: rest) := by
  unfold Array.getMut
  cases hk : findKey a.values k with
  | none => exact ⟨none, a, rfl, h, rfl, findKey_none hk, rfl⟩
  | some i =>
    obtain ⟨⟨k', v⟩, h1, h2, -⟩ := findKey_some hk
    simp only at h2
    subst h2
    obtain ⟨r, p1, p2⟩ := set_perm a.values i (k', v) (k', f v) h1
    refine ⟨some v, { a with values := a.values.set i (k', f v) }, by simp only [h1], ⟨?_, h.2⟩, rfl,
      i, rfl, h1, rfl, r, p1, p2⟩
    simp only
    rw [total_perm sz p2, total_cons, hf, ← total_cons, ← total_perm sz p1]
    exact h.1

theorem Array.getLawful [LinearOrder K] (sz : K × V → Nat) (srt srtS : Sorter (K × V)) :
    GetLawful (arrayBlock sz srt srtS) (arrayGet sz srt srtS) (Array.Inv sz) Array.values
      (fun f => ∀ k v, sz (k, f v) = sz (k, v)) := by
  have : AccessLaw (arrayBlock sz srt srtS) (fun a k f => .ok (Array.getMut a k f)) (Array.Inv sz)
      Array.values (fun f => ∀ k v, sz (k, f v) = sz (k, v)) := by
    intro s k f h hf
    obtain ⟨o, a', h1, h2, h3, h4⟩ := Array.getMut_spec sz s k f h hf
    refine ⟨o, a', congrArg Res.ok h1, h2, h3, ?_⟩
    cases o with
    | none => simp only at h4 ⊢; exact ⟨h4.1, by rw [h4.2]⟩
    | some v => obtain ⟨i, -, -, -, h5⟩ := h4; exact h5
  exact ⟨this, this⟩

theorem BTree.getLawful [LinearOrder K] [LinearOrder V] (sz : K × V → Nat)
    (hpos : ∀ e, 0 < sz e) :
    GetLawful (btreeBlock sz) (btreeGet (V := V) sz) (BTree.Inv sz) BTree.map
      (fun f => ∀ k v, sz (k, f v) = sz (k, v)) := by
  have : AccessLaw (btreeBlock sz) (BTree.getMut sz) (BTree.Inv sz) BTree.map
      (fun f : V → V => ∀ k v, sz (k, f v) = sz (k, v)) := by
    intro s k f h hf
    obtain ⟨o, t1, h1, h2, h3, h4, h5, h6⟩ := BTree.take_spec sz s k h.1
    have hI1 : BTree.Inv sz t1 := ⟨h2, by have := h.2; omega⟩
    cases o with
    | none =>
      exact ⟨none, t1, by simp only [BTree.getMut, h1, Res.ok_bind]; rfl, hI1, h3, h6.1, by rw [h6.2]⟩
    | some e =>
      obtain ⟨k', v⟩ := e
      obtain ⟨hk, hp⟩ := h6
      simp only at hk
      subst hk
      obtain ⟨out, t2, g1, g2, g3, g4, g5, -⟩ :=
        BTree.push_cases sz t1 [(k', f v)] hI1 (by simp)
      -- the element taken out fits back in
      have ht := total_perm sz hp
      rw [total_cons] at ht
      have hs := h.1.size
      have hs1 := h2.size
      have hb := h.2
      have hfit : total sz [(k', f v)] ≤ t1.capacity := by
        simp only [total_cons, total_nil, hf]; omega
      have hnk : ¬ HasKey t1.map k' := by
        have hn := ((hp.map Prod.fst).nodup_iff).2 h.1.nodup
        simp only [List.map_cons, List.nodup_cons] at hn
        rw [hasKey_iff_mem_map]; exact hn.1
      have hout : out = [] := by
        have hf' : total sz [(k', f v)] = sz (k', v) := by simp only [total_cons, total_nil, hf]; rfl
        by_cases hc : total sz [(k', f v)] < t1.capacity
        · obtain ⟨t', e1⟩ := BTree.push_fits sz t1 [(k', f v)] hI1 hc (by omega) (by simpa using hnk)
          rw [g1] at e1; cases e1; rfl
        · have h0 : total sz t1.map = 0 := by omega
          have hemp : t1.map = [] := by
            cases hm : t1.map with
            | nil => rfl
            | cons e r =>
              rw [hm, total_cons] at h0
              have := hpos e
              omega
          obtain ⟨kept, -, k2, -⟩ := g5 hfit
          rw [hemp] at k2
          have := List.perm_nil.1 k2
          simp at this
          exact this.2
      refine ⟨some v, t2, ?_, g2, g3.trans h3, t1.map, hp.symm, ?_⟩
      · simp only [BTree.getMut, h1, Res.ok_bind, g1, hout, if_true]; rfl
      · rw [hout] at g4
        simp only [List.append_nil] at g4
        perms [g4]
  exact ⟨this, this⟩


/-! ## Wrappers -/

theorem flushStopper_getLawful {C : Block K V} {G : GetOps C} {I ec PreF}
    (hG : GetLawful C G I ec PreF) :
    GetLawful (flushStopper C) (flushStopperGet G) I ec PreF := ⟨hG.get, hG.getMut⟩

theorem viaDefault_getLawful {C : Block K V} {G : GetOps C} {I ec PreF}
    (hG : GetLawful C G I ec PreF) :
    GetLawful (viaDefault C) (viaDefaultGet G) I ec PreF := ⟨hG.get, hG.getMut⟩

theorem profiler_getLawful {C : Block K V} {G : GetOps C} {I ec PreF}
    (hG : GetLawful C G I ec PreF) :
    GetLawful (profiler C) (profilerGet G) (fun s => I s.1) (fun s => ec s.1) PreF where
  get s k f h hf := by
    obtain ⟨o, s', h1, h2, h3, h4⟩ := hG.get s.1 k f h hf
    exact ⟨o, (s', _), by simp only [profilerGet, h1, Res.ok_bind]; rfl, h2, h3, h4⟩
  getMut s k f h hf := by
    obtain ⟨o, s', h1, h2, h3, h4⟩ := hG.getMut s.1 k f h hf
    exact ⟨o, (s', _), by simp only [profilerGet, h1, Res.ok_bind]; rfl, h2, h3, h4⟩

/-- The value seen after an access through a decorated cell is the value written. -/
def Access.Faithful {D : Decoration V} (A : Access D) : Prop :=
  ∀ fac f i, D.unwrap (A.access fac f i) = f (D.unwrap i)

theorem decorator_getLawful {D : Decoration V} {A : Access D} (hA : A.Faithful)
    {C : Block K D.Item} {G : GetOps C} {I : C.State → Prop} {ec : C.State → List (K × D.Item)}
    {PreF : (D.Item → D.Item) → Prop} (hG : GetLawful C G I ec PreF) :
    GetLawful (decorator D C) (decoratorGet A G) (fun s => I s.1) (decoratorElems D ec)
      (fun f => ∀ fac, PreF (A.access fac f)) := by
  have key : ∀ (op : C.State → K → (D.Item → D.Item) → Res (Option D.Item × C.State)),
      AccessLaw C op I ec PreF → AccessLaw (decorator D C) (fun s k f => do
        let (o, c) ← op s.1 k (A.access s.2 f)
        return (o.map D.unwrap, (c, if o.isSome then A.tick s.2 else s.2)))
        (fun s => I s.1) (decoratorElems D ec) (fun f => ∀ fac, PreF (A.access fac f)) := by
    intro op hop s k f h hf
    obtain ⟨o, s', h1, h2, h3, h4⟩ := hop s.1 k (A.access s.2 f) h (hf s.2)
    refine ⟨o.map D.unwrap, (s', if o.isSome then A.tick s.2 else s.2),
      by simp only [h1, Res.ok_bind]; rfl, h2, h3, ?_⟩
    cases o with
    | none =>
      simp only [Option.map_none, decoratorElems, hasKey_strip] at h4 ⊢
      exact ⟨h4.1, h4.2.map _⟩
    | some i =>
      obtain ⟨r, p1, p2⟩ := h4
      refine ⟨r.map (strip D), ?_, ?_⟩
      · simpa [strip, decoratorElems] using p1.map (strip D)
      · have := p2.map (strip D)
        simpa [strip, decoratorElems, hA s.2 f i] using this
  exact ⟨key _ hG.get, key _ hG.getMut⟩

theorem batchAccess_spec {C : Block K V} {I ec PreF}
    {op : C.State → K → (V → V) → Res (Option V × C.State)} (hop : AccessLaw C op I ec PreF)
    (k : K) (f : V → V) (hf : PreF f) : ∀ s : List C.State, (∀ c ∈ s, I c) →
    ∃ o s', batchAccess op s k f = .ok (o, s') ∧ (∀ c ∈ s', I c) ∧
      s'.map C.capacity = s.map C.capacity ∧
      match o with
      | none => ¬ HasKey (batchElems ec s) k ∧ (batchElems ec s').Perm (batchElems ec s)
      | some v => ∃ r, (batchElems ec s).Perm ((k, v) :: r) ∧
          (batchElems ec s').Perm ((k, f v) :: r) := by
  intro s
  induction s with
  | nil => intro _; exact ⟨none, [], rfl, by simp, rfl, by simp [HasKey], by simp⟩
  | cons c cs ih =>
    intro h
    obtain ⟨o, c', h1, h2, h3, h4⟩ := hop c k f (h c (by simp)) hf
    cases o with
    | some v =>
      obtain ⟨r, p1, p2⟩ := h4
      refine ⟨some v, c' :: cs, by simp only [batchAccess, h1, Res.ok_bind]; rfl, ?_, by simp [h3], r ++ batchElems ec cs, ?_, ?_⟩
      · intro x hx
        rcases List.mem_cons.1 hx with rfl | hx
        · exact h2
        · exact h x (by simp [hx])
      · simp only [batchElems_cons]; perms [p1]
      · simp only [batchElems_cons]; perms [p2]
    | none =>
      obtain ⟨o, cs', g1, g2, g3, g4⟩ := ih (fun x hx => h x (by simp [hx]))
      refine ⟨o, c' :: cs', by simp only [batchAccess, h1, Res.ok_bind, g1]; rfl, ?_, by simp [h3, g3], ?_⟩
      · intro x hx
        rcases List.mem_cons.1 hx with rfl | hx
        · exact h2
        · exact g2 x hx
      · have h5 := h4.2
        cases o with
        | none =>
          refine ⟨?_, ?_⟩
          · simp only [batchElems_cons, hasKey_append, not_or]; exact ⟨h4.1, g4.1⟩
          · have g5 := g4.2
            simp only [batchElems_cons]; perms [h5, g5]
        | some v =>
          obtain ⟨r, p1, p2⟩ := g4
          refine ⟨ec c ++ r, ?_, ?_⟩
          · simp only [batchElems_cons]; perms [p1]
          · simp only [batchElems_cons]; perms [p2, h5]

theorem batch_getLawful {C : Block K V} {G : GetOps C} {I ec PreF} (hG : GetLawful C G I ec PreF) :
    GetLawful (batch C) (batchGet G) (batchInv I) (batchElems ec) PreF where
  get s k f h hf := by
    obtain ⟨o, s', h1, h2, h3, h4⟩ := batchAccess_spec hG.get k f hf s h
    exact ⟨o, s', h1, h2, congrArg List.sum h3, h4⟩
  getMut s k f h hf := by
    obtain ⟨o, s', h1, h2, h3, h4⟩ := batchAccess_spec hG.getMut k f hf s h
    exact ⟨o, s', h1, h2, congrArg List.sum h3, h4⟩

/-- An element of the list of sets, and the elements of the other sets. -/
theorem batchElems_set {S : Type} (ec : S → List (K × V)) : ∀ (s : List S) (i : Nat) (c : S),
    s[i]? = some c → ∃ others, (batchElems ec s).Perm (ec c ++ others) ∧
      (∀ e ∈ others, ∃ j d, j ≠ i ∧ s[j]? = some d ∧ e ∈ ec d) ∧
      ∀ c', (batchElems ec (s.set i c')).Perm (ec c' ++ others) := by
  intro s
  induction s with
  | nil => intro i c h; simp at h
  | cons a s ih =>
    intro i c h
    cases i with
    | zero =>
      simp at h; subst h
      refine ⟨batchElems ec s, by simp, ?_, by simp⟩
      intro e he
      simp only [batchElems, List.mem_flatMap] at he
      obtain ⟨d, hd, he⟩ := he
      obtain ⟨j, hj, rfl⟩ := List.mem_iff_getElem.1 hd
      exact ⟨j + 1, s[j], by simp, by simp [hj], he⟩
    | succ i =>
      obtain ⟨o, h1, h2, h3⟩ := ih i c (by simpa using h)
      refine ⟨ec a ++ o, by simp only [batchElems_cons]; perms [h1], ?_, ?_⟩
      · intro e he
        rcases List.mem_append.1 he with he | he
        · exact ⟨0, a, by simp, by simp, he⟩
        · obtain ⟨j, d, hj, hd, he⟩ := h2 e he
          exact ⟨j + 1, d, by omega, by simpa using hd, he⟩
      · intro c'
        have := h3 c'
        simp only [List.set_cons_succ, batchElems_cons]
        perms [this]

theorem associative_getLawful (hash : K → Nat) {C : Block K V} {G : GetOps C} {I ec PreF}
    (hG : GetLawful C G I ec PreF) :
    GetLawful (associative hash C) (associativeGet hash G) (Associative.Inv hash I ec)
      (batchElems ec) PreF := by
  have key : ∀ (op : C.State → K → (V → V) → Res (Option V × C.State)),
      AccessLaw C op I ec PreF → AccessLaw (associative hash C) (associativeAccess hash op)
        (Associative.Inv hash I ec) (batchElems ec) PreF := by
    intro op hop (s : List C.State) k f h hf
    obtain ⟨hpos, hr⟩ := h
    have hlt : hash k % s.length < s.length := Nat.mod_lt _ hpos
    have hget : s[hash k % s.length]? = some s[hash k % s.length] := List.getElem?_eq_getElem hlt
    obtain ⟨hI, hroute⟩ := hr _ _ hget
    obtain ⟨o, c', h1, h2, h3, h4⟩ := hop _ k f hI hf
    obtain ⟨others, q1, q2, q3⟩ := batchElems_set ec s _ _ hget
    have hoth : ¬ HasKey others k := by
      rintro ⟨v, hv⟩
      obtain ⟨j, d, hj, hd, he⟩ := q2 _ hv
      have := (hr j d hd).2 _ he
      simp at this
      exact hj this.symm
    have hroute' : ∀ e ∈ ec c', hash e.1 % s.length = hash k % s.length := by
      intro e he
      cases o with
      | none =>
        have := hroute e (h4.2.mem_iff.1 he)
        simpa using this
      | some v =>
        obtain ⟨r, p1, p2⟩ := h4
        rcases List.mem_cons.1 (p2.mem_iff.1 he) with rfl | he
        · rfl
        · have := hroute e (p1.mem_iff.2 (List.mem_cons_of_mem _ he))
          simpa using this
    refine ⟨o, s.set (hash k % s.length) c', ?_, ⟨by simpa using hpos, ?_⟩, ?_, ?_⟩
    · simp only [associativeAccess, Associative.set, Nat.ne_of_gt hpos, if_false, Res.ok_bind, hget,
        Res.unwrap_some, h1]
      rfl
    · intro i c hc
      rw [List.length_set]
      rw [List.getElem?_set] at hc
      split at hc
      · next heq =>
        simp only [Option.some.injEq] at hc
        subst hc
        refine ⟨h2, fun e he => ?_⟩
        have := hroute' e he
        omega
      · exact hr i c hc
    · change ((s.set _ c').map C.capacity).sum = (s.map C.capacity).sum
      rw [List.map_set, h3, ← List.map_set, List.set_getElem_self]
    · have q4 := q3 c'
      cases o with
      | none =>
        obtain ⟨h5, h6⟩ := h4
        refine ⟨?_, ?_⟩
        · rw [hasKey_perm q1, hasKey_append, not_or]; exact ⟨h5, hoth⟩
        · perms [q1, q4, h6]
      | some v =>
        obtain ⟨r, p1, p2⟩ := h4
        refine ⟨r ++ others, ?_, ?_⟩
        · perms [q1, p1]
        · perms [q4, p2]
  exact ⟨key _ hG.get, key _ hG.getMut⟩

/-! ## Exclusive -/

/-- Containers counting elements: every element has size 1; a push evicts exactly what does not fit,
and an element pushed alone is stored (unless the capacity is 0). -/
structure Slots {K V : Type} (B : Block K V) (Inv : B.State → Prop)
    (elems : B.State → List (K × V)) : Prop where
  size : ∀ s, Inv s → B.size s = (elems s).length
  pushExact : ∀ s l out s', Inv s → B.push s l = .ok (out, s') →
    out.length = B.size s + l.length - B.capacity s
  pushOne : ∀ s x out s', Inv s → 0 < B.capacity s → B.push s [x] = .ok (out, s') →
    ∃ kept, (elems s').Perm (x :: kept) ∧ (kept ++ out).Perm (elems s)

theorem total_one {E : Type} (l : List E) : total (fun _ => 1) l = l.length := by
  induction l with
  | nil => rfl
  | cons a l ih => rw [total_cons, ih, List.length_cons]; omega

theorem Array.slots [LinearOrder K] (srt srtS : Sorter (K × V)) :
    Slots (arrayBlock (fun _ => 1) srt srtS) (Array.Inv fun _ => 1) Array.values where
  size s h := by have := h.1; rw [total_one] at this; exact this
  pushExact s l out s' h he := by
    have hs := h.1
    have hc := h.2
    rw [total_one] at hs
    change out.length = s.totalSize + l.length - s.capacity
    rcases Array.push_cases _ srt srtS s l h with ⟨h1, h2⟩ | ⟨h1, h2, h3⟩ |
      ⟨h1, p, q, h2, h3, h4, h5, h6⟩ | ⟨h1, h2, o, a', h3, h4⟩
    · rw [total_one] at h1
      have he' : Array.push (fun _ => 1) srt srtS s l = .ok (out, s') := he
      rw [h2] at he'; cases he'; simp; omega
    · rw [total_one] at h1 h2
      have he' : Array.push (fun _ => 1) srt srtS s l = .ok (out, s') := he
      rw [h3] at he'; cases he'; omega
    · have he' : Array.push (fun _ => 1) srt srtS s l = .ok (out, s') := he
      rw [h6] at he'; cases he'
      rw [total_one] at h1 h4
      rw [total_one] at h4
      cases q with
      | nil => exact absurd rfl h3
      | cons x q' =>
        have := h5 x q' rfl
        rw [total_one, total_one] at this
        simp only [List.length_append, List.length_cons] at h4 ⊢
        rcases this with rfl | g
        · simp at h4 ⊢; omega
        · omega
    · have he' : Array.push (fun _ => 1) srt srtS s l = .ok (out, s') := he
      rw [h4] at he'; cases he'
      rw [total_one] at h1 h2 h3
      rcases Array.pop_cases _ srt s (l.length - (s.capacity - s.totalSize)) h with ⟨g1, g2⟩ |
        ⟨g1, g2, g3⟩ | ⟨g1, g2, p, q, g3, g4, g5, g6, g7⟩
      · rw [g2] at h3; cases h3
        rw [g1] at hs; simp at hs ⊢; omega
      · rw [g3] at h3; cases h3; omega
      · rw [g7] at h3; cases h3
        cases hq : out with
        | nil => exact absurd hq g4
        | cons x q' =>
          have := g6 x q' hq
          rw [total_one] at this g5
          rw [hq] at g5
          simp only [List.length_cons] at g5 ⊢
          rcases this with rfl | g
          · simp at g5 ⊢; omega
          · omega
  pushOne s x out s' h hc he := by
    have he' : Array.push (fun _ => 1) srt srtS s [x] = .ok (out, s') := he
    have hc' : 0 < s.capacity := hc
    rcases Array.push_cases _ srt srtS s [x] h with ⟨h1, h2⟩ | ⟨h1, h2, h3⟩ |
      ⟨h1, p, q, h2, h3, h4, h5, h6⟩ | ⟨h1, h2, o, a', h3, h4⟩
    · rw [h2] at he'; cases he'
      exact ⟨s.values, by simp only; perms [], by simp⟩
    · rw [h3] at he'; cases he'
      exact ⟨[], by simp, by simp⟩
    · simp only [total_cons, total_nil] at h1; omega
    · rw [h4] at he'; cases he'
      obtain ⟨o2, a2, g1, -, -, g4, -⟩ := Array.pop_spec _ srt s _ h
      rw [h3] at g1; cases g1
      exact ⟨a'.values, by simp only; perms [], g4⟩

theorem exclusive_slots [LinearOrder K] {F B : Block K V} {If Ib ef eb}
    (hF : Core F If ef (fun _ => True)) (hB : Core B Ib eb (fun _ => True))
    (sF : Slots F If ef) (sB : Slots B Ib eb) :
    Slots (exclusive F B) (fun s => If s.1 ∧ Ib s.2) (exclusiveElems ef eb) where
  size s h := by
    simp [exclusive, exclusiveElems, sF.size s.1 h.1, sB.size s.2 h.2]
  pushExact s l out s' h he := by
    obtain ⟨o1, f, h1, h2, h3, h4⟩ := hF.push s.1 l h.1 trivial
    obtain ⟨o2, b, g1, g2, g3, g4⟩ := hB.push s.2 o1 h.2 trivial
    simp only [exclusive, h1, g1, Res.ok_bind, Res.pure_eq, Res.ok.injEq] at he ⊢
    obtain ⟨rfl, rfl⟩ := he
    have a1 := sF.pushExact _ _ _ _ h.1 h1
    have a2 := sB.pushExact _ _ _ _ h.2 g1
    have b2 := hB.bounded s.2 h.2
    omega
  pushOne s x out s' h hc he := by
    obtain ⟨o1, f, h1, h2, h3, h4⟩ := hF.push s.1 [x] h.1 trivial
    obtain ⟨o2, b, g1, g2, g3, g4⟩ := hB.push s.2 o1 h.2 trivial
    simp only [exclusive, h1, g1, Res.ok_bind, Res.pure_eq, Res.ok.injEq] at he
    obtain ⟨rfl, rfl⟩ := he
    by_cases hz : 0 < F.capacity s.1
    · obtain ⟨kept, p1, p2⟩ := sF.pushOne _ _ _ _ h.1 hz h1
      refine ⟨kept ++ eb b, ?_, ?_⟩
      · simp only [exclusiveElems]; perms [p1]
      · simp only [exclusiveElems]; perms [p2, g4]
    · -- a front of capacity 0 lets the element through
      have z1 := hF.bounded f h2
      have z2 := hF.bounded s.1 h.1
      have hf : ef f = [] := List.eq_nil_of_length_eq_zero (by rw [← sF.size f h2]; omega)
      have hs : ef s.1 = [] := List.eq_nil_of_length_eq_zero (by rw [← sF.size _ h.1]; omega)
      rw [hf, hs] at h4
      have ho : o1 = [x] := List.perm_singleton.1 (by simpa using h4)
      subst ho
      have hcb : 0 < B.capacity s.2 := by simp only [exclusive] at hc; omega
      obtain ⟨kept, p1, p2⟩ := sB.pushOne _ _ _ _ h.2 hcb g1
      exact ⟨kept, by simpa [exclusiveElems, hf] using p1, by simpa [exclusiveElems, hs] using p2⟩

theorem Slots.mono {B : Block K V} {Inv Inv' : B.State → Prop} {elems} (h : Slots B Inv elems)
    (hi : ∀ s, Inv' s → Inv s) : Slots B Inv' elems where
  size s hs := h.size s (hi s hs)
  pushExact s l out s' hs := h.pushExact s l out s' (hi s hs)
  pushOne s x out s' hs := h.pushOne s x out s' (hi s hs)

/-- One access on an `Exclusive` of containers counting elements, whose front has room for at least
one: the contract holds, and the element accessed ends up in the front. -/
theorem exclusiveAccess_spec [LinearOrder K] {F B : Block K V} {If Ib ef eb PreF}
    (hF : Core F If ef (fun _ => True)) (hB : Core B Ib eb (fun _ => True))
    (sF : Slots F If ef) (sB : Slots B Ib eb) (hcap : ∀ s, If s → 0 < F.capacity s)
    {op : F.State → K → (V → V) → Res (Option V × F.State)} (hop : AccessLaw F op If ef PreF)
    (s : F.State × B.State) (k : K) (f : V → V) (h : If s.1 ∧ Ib s.2) (hf : PreF f) :
    ∃ o s', exclusiveAccess F B op s k f = .ok (o, s') ∧ (If s'.1 ∧ Ib s'.2) ∧
      F.capacity s'.1 = F.capacity s.1 ∧ B.capacity s'.2 = B.capacity s.2 ∧
      (∀ v, o = some v → HasKey (ef s'.1) k) ∧
      match o with
      | none => ¬ HasKey (ef s.1 ++ eb s.2) k ∧ (ef s'.1 ++ eb s'.2).Perm (ef s.1 ++ eb s.2)
      | some v => ∃ rest, (ef s.1 ++ eb s.2).Perm ((k, v) :: rest) ∧
          (ef s'.1 ++ eb s'.2).Perm ((k, f v) :: rest) := by
  obtain ⟨b, fr, c1, c2, c3, c4, c5, c6⟩ := hF.contains s.1 k h.1
  cases b with
  | true =>
    obtain ⟨o, f', h1, h2, h3, h4⟩ := hop fr k f c2 hf
    have hk := c6.1 rfl
    cases o with
    | none => rw [c5] at h4; exact absurd hk h4.1
    | some v =>
      obtain ⟨r, p1, p2⟩ := h4
      refine ⟨some v, (f', s.2), ?_, ⟨h2, h.2⟩, ?_, rfl, fun _ _ => hasKey_of_perm_cons p2, r ++ eb s.2, ?_, ?_⟩
      · simp only [exclusiveAccess, c1, Res.ok_bind, h1, if_true]; rfl
      · simp only; rw [h3, c3]
      · rw [c5] at p1
        perms [p1]
      · simp only; perms [p2]
  | false =>
    have hnk : ¬ HasKey (ef s.1) k := fun hc => by simpa using c6.2 hc
    obtain ⟨o, bk, t1, t2, t3, t4⟩ := hB.take s.2 k h.2
    cases o with
    | none =>
      refine ⟨none, (fr, bk), ?_, ⟨c2, t2⟩, c3, t3, by simp, ?_, ?_⟩
      · simp only [exclusiveAccess, c1, Res.ok_bind, exclusiveDowngrade, t1]; rfl
      · simp only [hasKey_append, not_or]; exact ⟨hnk, t4.1⟩
      · have := t4.2
        simp only [c5]; perms [this]
    | some x =>
      obtain ⟨hx, tp⟩ := t4
      obtain ⟨o1, f1, p1, p2, p3, p4⟩ := hF.push fr [x] c2 trivial
      obtain ⟨kept, k1, k2⟩ := sF.pushOne _ _ _ _ c2 (hcap fr c2) p1
      have e1 := sF.pushExact _ _ _ _ c2 p1
      -- the evicted element fits in the back
      have hback : ∃ o2 b2, B.push bk o1 = .ok (o2, b2) ∧ o2 = [] ∧ Ib b2 ∧
          B.capacity b2 = B.capacity s.2 ∧ (eb b2).Perm (eb bk ++ o1) := by
        obtain ⟨o2, b2, q1, q2, q3, q4⟩ := hB.push bk o1 t2 trivial
        have e2 := sB.pushExact _ _ _ _ t2 q1
        have z1 := sB.size bk t2
        have z2 := sB.size s.2 h.2
        have z3 := tp.length_eq
        simp only [List.length_cons] at z3
        have z4 := hB.bounded s.2 h.2
        have z5 := hF.bounded fr c2
        simp only [List.length_cons, List.length_nil] at e1
        have : o2 = [] := List.eq_nil_of_length_eq_zero (by omega)
        subst this
        exact ⟨[], b2, q1, rfl, q2, q3.trans t3, by simpa using q4⟩
      obtain ⟨o2, b2, q1, rfl, q2, q3, q4⟩ := hback
      have hdown : ∃ b3, exclusiveDowngrade F B (fr, s.2) k = .ok (true, (f1, b3)) ∧ Ib b3 ∧
          B.capacity b3 = B.capacity s.2 ∧ (eb b3).Perm (eb bk ++ o1) := by
        by_cases ho : o1 = []
        · refine ⟨bk, ?_, t2, t3, by simp [ho]⟩
          simp only [exclusiveDowngrade, t1, Res.ok_bind, p1, ho, if_true, Res.pure_eq]
        · refine ⟨b2, ?_, q2, q3, q4⟩
          simp only [exclusiveDowngrade, t1, Res.ok_bind, p1, ho, if_false, q1, if_true, Res.pure_eq]
      obtain ⟨b3, d1, d2, d3, d4⟩ := hdown
      obtain ⟨o, f2, u1, u2, u3, u4⟩ := hop f1 k f p2 hf
      have hk1 : HasKey (ef f1) k := ⟨x.2, k1.mem_iff.2 (by rw [← hx]; simp)⟩
      cases o with
      | none => exact absurd hk1 u4.1
      | some v =>
        obtain ⟨r, r1, r2⟩ := u4
        rw [c5] at k2
        refine ⟨some v, (f2, b3), ?_, ⟨u2, d2⟩, ?_, d3, fun _ _ => hasKey_of_perm_cons r2,
          r ++ eb b3, ?_, ?_⟩
        · simp only [exclusiveAccess, c1, Res.ok_bind, d1, if_true, u1]; rfl
        · simp only; rw [u3, p3, c3]
        · perms [r1, d4, k1, k2, tp]
        · simp only; perms [r2]

/-- `get`/`get_mut` on an `Exclusive` of containers counting elements. -/
theorem exclusive_getLawful [LinearOrder K] {F B : Block K V} {G : GetOps F} {If Ib ef eb PreF}
    (hF : Core F If ef (fun _ => True)) (hB : Core B Ib eb (fun _ => True))
    (sF : Slots F If ef) (sB : Slots B Ib eb) (hcap : ∀ s, If s → 0 < F.capacity s)
    (hG : GetLawful F G If ef PreF) :
    GetLawful (exclusive F B) (exclusiveGet G)
      (fun s => If s.1 ∧ Ib s.2) (exclusiveElems ef eb) PreF where
  get s k f h hf := by
    obtain ⟨o, s', h1, h2, h3, h4, -, h5⟩ :=
      exclusiveAccess_spec hF hB sF sB hcap hG.get s k f h hf
    exact ⟨o, s', h1, h2, by simp [exclusive, h3, h4], h5⟩
  getMut s k f h hf := by
    obtain ⟨o, s', h1, h2, h3, h4, -, h5⟩ :=
      exclusiveAccess_spec hF hB sF sB hcap hG.getMut s k f h hf
    exact ⟨o, s', h1, h2, by simp [exclusive, h3, h4], h5⟩

/-! ## `Slots` for the other combinators -/

theorem flushStopper_slots {C : Block K V} {I ec} (h : Slots C I ec) : Slots (flushStopper C) I ec :=
  ⟨h.size, h.pushExact, h.pushOne⟩

theorem viaDefault_slots {C : Block K V} {I ec} (h : Slots C I ec) : Slots (viaDefault C) I ec :=
  ⟨h.size, h.pushExact, h.pushOne⟩

theorem profiler_slots {C : Block K V} {I ec} (h : Slots C I ec) :
    Slots (profiler C) (fun s => I s.1) (fun s => ec s.1) where
  size s hs := h.size s.1 hs
  pushExact s l out s' hs he := by
    cases hp : C.push s.1 l with
    | panic => simp [profiler, hp] at he
    | ok r =>
      obtain ⟨o, c⟩ := r
      simp only [profiler, hp, Res.ok_bind, Res.pure_eq, Res.ok.injEq] at he
      obtain ⟨rfl, rfl⟩ := he
      exact h.pushExact s.1 l _ c hs hp
  pushOne s x out s' hs hc he := by
    cases hp : C.push s.1 [x] with
    | panic => simp [profiler, hp] at he
    | ok r =>
      obtain ⟨o, c⟩ := r
      simp only [profiler, hp, Res.ok_bind, Res.pure_eq, Res.ok.injEq] at he
      obtain ⟨rfl, rfl⟩ := he
      exact h.pushOne s.1 x _ c hs hc hp

theorem batch_slots {C : Block K V} {I ec} (hC : Core C I ec (fun _ => True)) (h : Slots C I ec) :
    Slots (batch C) (batchInv I) (batchElems ec) := by
  have hsz : ∀ s : List C.State, (∀ c ∈ s, I c) → (s.map C.size).sum = (batchElems ec s).length := by
    intro s
    induction s with
    | nil => intro _; rfl
    | cons c cs ih =>
      intro hs
      simp only [List.map_cons, List.sum_cons, batchElems_cons, List.length_append]
      rw [ih (fun x hx => hs x (by simp [hx])), h.size c (hs c (by simp))]
  have hbd : ∀ s : List C.State, (∀ c ∈ s, I c) → (s.map C.size).sum ≤ (s.map C.capacity).sum := by
    intro s
    induction s with
    | nil => intro _; simp
    | cons c cs ih =>
      intro hs
      simp only [List.map_cons, List.sum_cons]
      exact Nat.add_le_add (hC.bounded c (hs c (by simp))) (ih (fun x hx => hs x (by simp [hx])))
  have hex : ∀ (s : List C.State) (l out : List (K × V)) (rest used : List C.State),
      (∀ c ∈ s, I c) → Batch.pushLoop C s l = .ok (out, rest, used) →
      out.length = (s.map C.size).sum + l.length - (s.map C.capacity).sum := by
    intro s
    induction s with
    | nil =>
      intro l out rest used _ he
      cases l <;> simp only [Batch.pushLoop, Res.ok.injEq, Prod.mk.injEq] at he <;>
        (obtain ⟨rfl, -, -⟩ := he; simp)
    | cons c cs ih =>
      intro l out rest used hs he
      have hb := hbd (c :: cs) hs
      cases l with
      | nil =>
        simp only [Batch.pushLoop, Res.ok.injEq, Prod.mk.injEq] at he
        obtain ⟨rfl, -, -⟩ := he
        simp only [List.length_nil]; omega
      | cons v vs =>
        obtain ⟨o1, c', h1, h2, h3, h4⟩ := hC.push c (v :: vs) (hs c (by simp)) trivial
        have e1 := h.pushExact _ _ _ _ (hs c (by simp)) h1
        cases hp : Batch.pushLoop C cs o1 with
        | panic => simp [Batch.pushLoop, h1, hp] at he
        | ok r =>
          obtain ⟨o2, r2, u2⟩ := r
          simp only [Batch.pushLoop, h1, hp, Res.ok_bind, Res.pure_eq, Res.ok.injEq,
            Prod.mk.injEq] at he
          obtain ⟨rfl, -, -⟩ := he
          have e2 := ih _ _ _ _ (fun x hx => hs x (by simp [hx])) hp
          have b2 := hbd cs (fun x hx => hs x (by simp [hx]))
          simp only [List.map_cons, List.sum_cons]
          omega
  have hone : ∀ (s : List C.State) (x : K × V) (out : List (K × V)) (rest used : List C.State),
      (∀ c ∈ s, I c) → 0 < (s.map C.capacity).sum →
      Batch.pushLoop C s [x] = .ok (out, rest, used) →
      ∃ kept, (batchElems ec (rest ++ used)).Perm (x :: kept) ∧
        (kept ++ out).Perm (batchElems ec s) := by
    intro s
    induction s with
    | nil => intro x out rest used _ hc; simp at hc
    | cons c cs ih =>
      intro x out rest used hs hc he
      obtain ⟨o1, c', h1, h2, h3, h4⟩ := hC.push c [x] (hs c (by simp)) trivial
      obtain ⟨o2, r2, u2, g1, g2, g3, g4⟩ :=
        Batch.pushLoop_spec hC cs o1 (fun x hx => hs x (by simp [hx]))
      simp only [Batch.pushLoop, h1, g1, Res.ok_bind, Res.pure_eq, Res.ok.injEq, Prod.mk.injEq] at he
      obtain ⟨rfl, rfl, rfl⟩ := he
      have hre : (batchElems ec (r2 ++ c' :: u2)).Perm (ec c' ++ batchElems ec (r2 ++ u2)) := by
        simp only [batchElems_append, batchElems_cons]; perms []
      by_cases hz : 0 < C.capacity c
      · obtain ⟨kept, p1, p2⟩ := h.pushOne _ _ _ _ (hs c (by simp)) hz h1
        refine ⟨kept ++ batchElems ec (r2 ++ u2), ?_, ?_⟩
        · perms [hre, p1]
        · simp only [batchElems_cons]; perms [p2, g4]
      · have z1 := hC.bounded c' h2
        have z2 := hC.bounded c (hs c (by simp))
        have hc' : ec c' = [] := List.eq_nil_of_length_eq_zero (by rw [← h.size c' h2]; omega)
        have hcc : ec c = [] :=
          List.eq_nil_of_length_eq_zero (by rw [← h.size c (hs c (by simp))]; omega)
        rw [hc', hcc] at h4
        have ho : o1 = [x] := List.perm_singleton.1 (by simpa using h4)
        subst ho
        obtain ⟨kept, p1, p2⟩ := ih x o2 r2 u2 (fun x hx => hs x (by simp [hx]))
          (by simp only [List.map_cons, List.sum_cons] at hc; omega) g1
        refine ⟨kept, ?_, ?_⟩
        · rw [hc'] at hre
          exact hre.trans (by simpa using p1)
        · simpa [hcc] using p2
  refine ⟨fun s hs => hsz s hs, ?_, ?_⟩
  · intro (s : List C.State) l out (s' : List C.State) hs he
    cases hp : Batch.pushLoop C s l with
    | panic => simp [batch, Batch.push, hp] at he
    | ok r =>
      obtain ⟨o, r, u⟩ := r
      simp only [batch, Batch.push, hp, Res.ok_bind, Res.pure_eq, Res.ok.injEq, Prod.mk.injEq] at he
      obtain ⟨rfl, rfl⟩ := he
      exact hex s l o r u hs hp
  · intro (s : List C.State) x out (s' : List C.State) hs hc he
    cases hp : Batch.pushLoop C s [x] with
    | panic => simp [batch, Batch.push, hp] at he
    | ok r =>
      obtain ⟨o, r, u⟩ := r
      simp only [batch, Batch.push, hp, Res.ok_bind, Res.pure_eq, Res.ok.injEq, Prod.mk.injEq] at he
      obtain ⟨rfl, rfl⟩ := he
      exact hone s x o r u hs hc hp

theorem decorator_slots (D : Decoration V) (hD : D.Faithful) {C : Block K D.Item}
    {I : C.State → Prop} {ec : C.State → List (K × D.Item)} (h : Slots C I ec) :
    Slots (decorator D C) (fun s => I s.1) (decoratorElems D ec) where
  size s hs := by simpa [decorator, decoratorElems] using h.size s.1 hs
  pushExact s l out s' hs he := by
    cases hw : wrapAll D s.2 l with
    | mk wl fac =>
    cases hp : C.push s.1 wl with
    | panic => simp [decorator, hw, hp] at he
    | ok r =>
      obtain ⟨o, c⟩ := r
      simp only [decorator, hw, hp, Res.ok_bind, Res.pure_eq, Res.ok.injEq] at he
      obtain ⟨rfl, -⟩ := he
      have e := h.pushExact _ _ _ _ hs hp
      have hl := congrArg List.length (wrapAll_keys D l s.2)
      rw [hw] at hl
      simp only [List.length_map] at hl ⊢
      rw [e, hl]; rfl
  pushOne s x out s' hs hc he := by
    obtain ⟨k, v⟩ := x
    cases hw : D.wrap s.2 v with
    | mk i fac =>
    have hwl : wrapAll D s.2 [(k, v)] = ([(k, i)], fac) := by simp [wrapAll, hw]
    cases hp : C.push s.1 [(k, i)] with
    | panic => simp [decorator, hwl, hp] at he
    | ok r =>
      obtain ⟨o, c⟩ := r
      simp only [decorator, hwl, hp, Res.ok_bind, Res.pure_eq, Res.ok.injEq] at he
      obtain ⟨rfl, rfl⟩ := he
      obtain ⟨kept, p1, p2⟩ := h.pushOne _ _ _ _ hs hc hp
      have hv : D.unwrap i = v := by have := hD s.2 v; rwa [hw] at this
      refine ⟨kept.map (strip D), ?_, ?_⟩
      · simpa [decoratorElems, strip, hv] using p1.map (strip D)
      · simpa [decoratorElems] using p2.map (strip D)

end Byoc
