import Verif.Model.Policies
import Verif.Proofs.Get

/-! Time stamps and ages. -/

namespace Byoc.Policy

variable {K I : Type} [DecidableEq K] {T : Type}

/-- Number of uses since key `k` was last used, in the list of keys used so far (oldest first). -/
def age (h : List K) (k : K) : Nat := h.reverse.idxOf k

omit [DecidableEq K] in
theorem age_snoc_self [DecidableEq K] (h : List K) (k : K) : age (h ++ [k]) k = 0 := by
  simp [age]

theorem age_snoc_ne (h : List K) {k k' : K} (hne : k' ≠ k) : age (h ++ [k]) k' = age h k' + 1 := by
  simp only [age, List.reverse_append, List.reverse_cons, List.reverse_nil, List.nil_append,
    List.singleton_append]
  exact List.idxOf_cons_ne _ (Ne.symm hne)

theorem age_inj {h : List K} {k k' : K} (hk : k ∈ h) (he : age h k = age h k') : k = k' := by
  unfold age at he
  exact (List.idxOf_inj (by simpa using hk)).1 he

/-- The stamps of the items are readings of the clock, ordered as the last uses of their keys. -/
def Ranked (stamp : I → T) (clock : Nat → T) (fac : Nat) (items : List (K × I)) (h : List K) : Prop :=
  ∃ idx : K → Nat, (∀ e ∈ items, stamp e.2 = clock (idx e.1) ∧ idx e.1 < fac ∧ e.1 ∈ h) ∧
    ∀ e ∈ items, ∀ e' ∈ items, (idx e.1 < idx e'.1 ↔ age h e'.1 < age h e.1)

variable {stamp : I → T} {clock : Nat → T} {fac : Nat} {items items' : List (K × I)} {h : List K}

theorem Ranked.nil : Ranked stamp clock fac ([] : List (K × I)) h := ⟨fun _ => 0, by simp, by simp⟩

theorem Ranked.sub (hr : Ranked stamp clock fac items h) (hs : ∀ e ∈ items', e ∈ items) :
    Ranked stamp clock fac items' h := by
  obtain ⟨idx, h1, h2⟩ := hr
  exact ⟨idx, fun e he => h1 e (hs e he), fun e he e' he' => h2 e (hs e he) e' (hs e' he')⟩

/-- A key that is not stored is used. -/
theorem Ranked.miss (hr : Ranked stamp clock fac items h) {k : K} (hk : ∀ e ∈ items, e.1 ≠ k) :
    Ranked stamp clock fac items (h ++ [k]) := by
  obtain ⟨idx, h1, h2⟩ := hr
  refine ⟨idx, fun e he => ⟨(h1 e he).1, (h1 e he).2.1, by simp [(h1 e he).2.2]⟩, ?_⟩
  intro e he e' he'
  rw [age_snoc_ne h (hk e he), age_snoc_ne h (hk e' he'), h2 e he e' he']
  omega

/-- A key is stamped. -/
theorem Ranked.mark (hr : Ranked stamp clock fac items h) {k : K} {i : I} (hk : ∀ e ∈ items, e.1 ≠ k)
    (hi : stamp i = clock fac) : Ranked stamp clock (fac + 1) ((k, i) :: items) (h ++ [k]) := by
  obtain ⟨idx, h1, h2⟩ := hr
  refine ⟨fun x => if x = k then fac else idx x, ?_, ?_⟩
  · intro e he
    rcases List.mem_cons.1 he with rfl | he
    · simp [hi]
    · have hne := hk e he
      simp only [if_neg hne]
      exact ⟨(h1 e he).1, by have := (h1 e he).2.1; omega, by simp [(h1 e he).2.2]⟩
  · intro e he e' he'
    rcases List.mem_cons.1 he with rfl | he <;> rcases List.mem_cons.1 he' with rfl | he'
    · simp
    · have hne := hk e' he'
      simp only [if_neg hne, if_true, age_snoc_self]
      have := (h1 e' he').2.1
      constructor <;> intro hh <;> omega
    · have hne := hk e he
      simp only [if_neg hne, if_true, age_snoc_self, age_snoc_ne h hne]
      have := (h1 e he).2.1
      constructor <;> intro hh <;> omega
    · have hne := hk e he
      have hne' := hk e' he'
      simp only [if_neg hne, if_neg hne', age_snoc_ne h hne, age_snoc_ne h hne', h2 e he e' he']
      omega

/-- An earlier stamp means an earlier last use. -/
theorem Ranked.older_of_lt [LinearOrder T] (hm : Monotone clock) (hr : Ranked stamp clock fac items h)
    {x y : K × I} (hx : x ∈ items) (hy : y ∈ items) (hlt : stamp x.2 < stamp y.2) :
    age h y.1 < age h x.1 := by
  obtain ⟨idx, h1, h2⟩ := hr
  rw [← h2 x hx y hy]
  rw [(h1 x hx).1, (h1 y hy).1] at hlt
  by_contra hc
  exact absurd (hm (Nat.le_of_not_lt hc)) (not_le.2 hlt)

theorem Ranked.older [LinearOrder T] (hm : StrictMono clock) (hr : Ranked stamp clock fac items h)
    {x y : K × I} (hx : x ∈ items) (hy : y ∈ items) (hne : x.1 ≠ y.1) (hle : stamp x.2 ≤ stamp y.2) :
    age h y.1 < age h x.1 := by
  obtain ⟨idx, h1, h2⟩ := hr
  rw [(h1 x hx).1, (h1 y hy).1, hm.le_iff_le] at hle
  rw [← h2 x hx y hy]
  rcases Nat.lt_or_ge (idx x.1) (idx y.1) with hc | hc
  · exact hc
  · exfalso
    have e : idx x.1 = idx y.1 := by omega
    have a1 := h2 x hx y hy
    have a2 := h2 y hy x hx
    rw [e] at a1 a2
    simp only [lt_self_iff_false, false_iff, not_lt] at a1 a2
    exact hne (age_inj (h1 x hx).2.2 (by omega))

/-! ## Decorations that stamp -/

variable {V : Type}

/-- The decoration stamps what it wraps with the next reading of the clock. -/
structure Stamps (D : Decoration V) (stamp : D.Item → T) (clock : Nat → T) (read : D.Factory → Nat) :
    Prop where
  faithful : ∀ f v, D.unwrap (D.wrap f v).1 = v
  wrap : ∀ f v, stamp (D.wrap f v).1 = clock (read f) ∧ read (D.wrap f v).2 = read f + 1

theorem Stamps.wrapAll {D : Decoration V} {stamp : D.Item → T} {clock : Nat → T} {read}
    (hD : Stamps D stamp clock read) : ∀ (l : List (K × V)) (f : D.Factory) (items : List (K × D.Item))
      (h : List K), ((items.map Prod.fst) ++ l.map Prod.fst).Nodup →
      Ranked stamp clock (read f) items h →
      Ranked stamp clock (read (Byoc.wrapAll D f l).2) (items ++ (Byoc.wrapAll D f l).1)
        (h ++ l.map Prod.fst)
  | [], f, items, h, _, hr => by simpa [Byoc.wrapAll] using hr
  | (k, v) :: l, f, items, h, hn, hr => by
    simp only [Byoc.wrapAll]
    have hk : ∀ e ∈ items, e.1 ≠ k := by
      intro e he heq
      have := (List.nodup_append.1 hn).2.2 e.1 (List.mem_map_of_mem he) k (by simp)
      exact this heq
    have h1 := hr.mark (k := k) hk (hD.wrap f v).1
    rw [← (hD.wrap f v).2] at h1
    have h2 := Stamps.wrapAll hD l (D.wrap f v).2 ((k, (D.wrap f v).1) :: items) (h ++ [k])
      (by
        refine (List.Perm.nodup_iff ?_).1 hn
        simp only [List.map_cons, List.cons_append]
        exact List.perm_middle) h1
    refine (h2.sub ?_ : Ranked _ _ _ _ (h ++ [k] ++ l.map Prod.fst)) |> fun h3 => by
      simpa using h3
    intro e he
    simp only [List.mem_append, List.mem_cons, List.cons_append] at he ⊢
    tauto

omit [DecidableEq K] in
theorem wrapAll_keys {D : Decoration V} : ∀ (l : List (K × V)) (f : D.Factory),
    (Byoc.wrapAll D f l).1.map Prod.fst = l.map Prod.fst
  | [], _ => rfl
  | (k, v) :: l, f => by simp [Byoc.wrapAll, wrapAll_keys l]

/-- The keys a call uses: pushed, or, if `touch`, accessed. -/
def used (touch : Bool) : Call K V → List K
  | .op (.push l) => l.map Prod.fst
  | .get k _ => if touch then [k] else []
  | .getMut k _ => if touch then [k] else []
  | _ => []

/-- What an access does to the stamp. -/
def Accesses (D : Decoration V) (A : Access D) (stamp : D.Item → T) (clock : Nat → T)
    (read : D.Factory → Nat) (touch : Bool) : Prop :=
  (∀ fac f i, D.unwrap (A.access fac f i) = f (D.unwrap i)) ∧
  ∀ fac f i, if touch then stamp (A.access fac f i) = clock (read fac) ∧ read (A.tick fac) = read fac + 1
    else stamp (A.access fac f i) = stamp i ∧ read (A.tick fac) = read fac

/-- Changing an item without changing its stamp. -/
theorem Ranked.same (hr : Ranked stamp clock fac items h) {k : K} {i j : I} {rest : List (K × I)}
    (hp : items.Perm ((k, i) :: rest)) (hs : stamp j = stamp i) :
    Ranked stamp clock fac ((k, j) :: rest) h := by
  have hr := hr.sub (items' := (k, i) :: rest) (fun e he => hp.mem_iff.2 he)
  obtain ⟨idx, h1, h2⟩ := hr
  refine ⟨idx, ?_, ?_⟩
  · intro e he
    rcases List.mem_cons.1 he with rfl | he
    · have := h1 (k, i) (by simp); exact ⟨hs.trans this.1, this.2⟩
    · exact h1 e (by simp [he])
  · intro e he e' he'
    rcases List.mem_cons.1 he with rfl | he <;> rcases List.mem_cons.1 he' with rfl | he'
    · simp
    · exact h2 (k, i) (by simp) e' (by simp [he'])
    · exact h2 e (by simp [he]) (k, i) (by simp)
    · exact h2 e (by simp [he]) e' (by simp [he'])

variable {C : Block K V}

section
variable {D : Decoration V} {A : Access D} {stamp : D.Item → T} {clock : Nat → T}
  {read : D.Factory → Nat} {touch : Bool} {C : Block K D.Item} {G : GetOps C} {Inv : C.State → Prop}
  {ec : C.State → List (K × D.Item)} {PreF : (D.Item → D.Item) → Prop}

/-- One access keeps the ranking. -/
theorem ranked_access (hA : Accesses D A stamp clock read touch)
    {op : C.State → K → (D.Item → D.Item) → Res (Option D.Item × C.State)}
    (hop : AccessLaw C op Inv ec PreF) {s s' : C.State} {fac : D.Factory} {k : K} {f : V → V} {o}
    {h : List K} (hs : Inv s) (hf : PreF (A.access fac f))
    (hn : ((ec s).map Prod.fst).Nodup) (hr : Ranked stamp clock (read fac) (ec s) h)
    (he : op s k (A.access fac f) = .ok (o, s')) :
    Inv s' ∧ ((ec s').map Prod.fst).Nodup ∧
      Ranked stamp clock (read (if o.isSome then A.tick fac else fac)) (ec s')
        (h ++ if touch then [k] else []) := by
  obtain ⟨o', s1, h1, h2, h3, h4⟩ := hop s k (A.access fac f) hs hf
  rw [he] at h1
  cases h1
  cases o with
  | none =>
    refine ⟨h2, (h4.2.map Prod.fst).nodup_iff.2 hn, ?_⟩
    have hr' := hr.sub (items' := ec s') (fun e he => h4.2.mem_iff.1 he)
    cases touch with
    | false => simpa using hr'
    | true =>
      simp only [Option.isSome_none, Bool.false_eq_true, if_false, if_true]
      refine hr'.miss ?_
      rintro ⟨k', v'⟩ hm rfl
      exact h4.1 ⟨v', h4.2.mem_iff.1 hm⟩
  | some i =>
    obtain ⟨rest, r1, r2⟩ := h4
    have hk : (((k, i) :: rest).map Prod.fst).Nodup := (r1.map Prod.fst).nodup_iff.1 hn
    have hk' : ∀ e ∈ rest, e.1 ≠ k := by
      intro e he heq
      simp only [List.map_cons, List.nodup_cons] at hk
      exact hk.1 (heq ▸ List.mem_map_of_mem he)
    refine ⟨h2, (r2.map Prod.fst).nodup_iff.2 (by simpa using hk), ?_⟩
    have hA2 := hA.2 fac f i
    simp only [Option.isSome_some, if_true]
    cases touch with
    | false =>
      simp only [Bool.false_eq_true, if_false, List.append_nil] at hA2 ⊢
      rw [hA2.2]
      exact (hr.same r1 hA2.1).sub (fun e he => r2.mem_iff.1 he)
    | true =>
      simp only [if_true] at hA2 ⊢
      rw [hA2.2]
      exact ((hr.sub (items' := rest) (fun e he => r1.mem_iff.2 (by simp [he]))).mark hk' hA2.1).sub
        (fun e he => r2.mem_iff.1 he)

/-- One call keeps the ranking. -/
theorem ranked_call (hD : Stamps D stamp clock read) (hA : Accesses D A stamp clock read touch)
    (hC : Lawful C Inv ec (fun _ => True)) (hG : GetLawful C G Inv ec PreF)
    {s s' : C.State × D.Factory} {c : Call K V} {out} {h : List K} (hs : Inv s.1)
    (hc : c.Ok (fun _ => True) (fun f => ∀ fac, PreF (A.access fac f)))
    (hn : ((ec s.1).map Prod.fst ++ c.given.map Prod.fst).Nodup)
    (hr : Ranked stamp clock (read s.2) (ec s.1) h)
    (he : (decorator D C).call (decoratorGet A G) s c = .ok (out, s')) :
    Inv s'.1 ∧ ((ec s'.1).map Prod.fst).Nodup ∧
      Ranked stamp clock (read s'.2) (ec s'.1) (h ++ used touch c) := by
  obtain ⟨s, fac⟩ := s
  have hn0 : ((ec s).map Prod.fst).Nodup := (List.nodup_append.1 hn).1
  have shrink : ∀ {s1 : C.State} {l : List (K × D.Item)}, Inv s1 → (ec s1 ++ l).Perm (ec s) →
      Inv s1 ∧ ((ec s1).map Prod.fst).Nodup ∧ Ranked stamp clock (read fac) (ec s1) h := by
    intro s1 l hi hp
    refine ⟨hi, ?_, hr.sub (fun e he => hp.mem_iff.1 (by simp [he]))⟩
    have := (hp.map Prod.fst).nodup_iff.2 hn0
    rw [List.map_append] at this
    exact (List.nodup_append.1 this).1
  cases c with
  | get k f =>
    simp only [Block.call, decoratorGet] at he
    obtain ⟨o, s1, h1, -⟩ := hG.get s k (A.access fac f) hs (hc fac)
    rw [h1] at he
    cases he
    exact ranked_access hA hG.get hs (hc fac) hn0 hr h1
  | getMut k f =>
    simp only [Block.call, decoratorGet] at he
    obtain ⟨o, s1, h1, -⟩ := hG.getMut s k (A.access fac f) hs (hc fac)
    rw [h1] at he
    cases he
    exact ranked_access hA hG.getMut hs (hc fac) hn0 hr h1
  | op o =>
    cases o with
    | contains k =>
      obtain ⟨b, s1, h1, h2, -, -, h3, -⟩ := hC.contains s k hs
      simp only [Block.call, Block.step, decorator, h1, Res.ok_bind, Res.pure_eq, Res.ok.injEq,
        Prod.mk.injEq] at he
      obtain ⟨-, rfl⟩ := he
      simpa [used] using shrink (l := []) h2 (by simp [h3])
    | take k =>
      obtain ⟨o, s1, h1, h2, -, h3⟩ := hC.take s k hs
      simp only [Block.call, Block.step, decorator, h1, Res.ok_bind, Res.pure_eq, Res.ok.injEq,
        Prod.mk.injEq] at he
      obtain ⟨-, rfl⟩ := he
      cases o with
      | none => simpa [used] using shrink (l := []) h2 (by simpa using h3.2)
      | some e =>
        simpa [used] using shrink (l := [e]) h2 ((List.perm_append_singleton _ _).trans h3.2)
    | takeMultiple ks =>
      obtain ⟨o, ks', s1, h1, h2, -, h3, -⟩ := hC.takeMultiple s ks hs
      simp only [Block.call, Block.step, decorator, h1, Res.ok_bind, Res.pure_eq, Res.ok.injEq,
        Prod.mk.injEq] at he
      obtain ⟨-, rfl⟩ := he
      simpa [used] using shrink h2 h3
    | pop n =>
      obtain ⟨o, s1, h1, h2, -, h3, -⟩ := hC.pop s n hs
      simp only [Block.call, Block.step, decorator, h1, Res.ok_bind, Res.pure_eq, Res.ok.injEq,
        Prod.mk.injEq] at he
      obtain ⟨-, rfl⟩ := he
      simpa [used] using shrink h2 h3
    | flush =>
      obtain ⟨o, s1, h1, h2, -, h3⟩ := hC.flush s hs
      simp only [Block.call, Block.step, decorator, h1, Res.ok_bind, Res.pure_eq, Res.ok.injEq,
        Prod.mk.injEq] at he
      obtain ⟨-, rfl⟩ := he
      simpa [used] using shrink h2 h3
    | push l =>
      obtain ⟨o, s1, h1, h2, -, h3⟩ := hC.push s (Byoc.wrapAll D fac l).1 hs trivial
      simp only [Block.call, Block.step, decorator, h1, Res.ok_bind, Res.pure_eq, Res.ok.injEq,
        Prod.mk.injEq] at he
      obtain ⟨-, rfl⟩ := he
      have h4 := hD.wrapAll l fac (ec s) h hn hr
      refine ⟨h2, ?_, ?_⟩
      · have := (h3.map Prod.fst).nodup_iff.2 (by
          rw [List.map_append, wrapAll_keys]; exact hn)
        rw [List.map_append] at this
        exact (List.nodup_append.1 this).1
      · exact h4.sub (fun e he => h3.mem_iff.1 (by simp [he]))

/-- A history keeps the ranking. -/
theorem ranked_calls (hD : Stamps D stamp clock read) (hA : Accesses D A stamp clock read touch)
    (hC : Lawful C Inv ec (fun _ => True)) (hG : GetLawful C G Inv ec PreF) (cs : List (Call K V))
    (hcs : ∀ c ∈ cs, c.Ok (fun _ => True) (fun f => ∀ fac, PreF (A.access fac f))) :
    ∀ (s : C.State × D.Factory) (h : List K), Inv s.1 → ((ec s.1).map Prod.fst).Nodup →
      Ranked stamp clock (read s.2) (ec s.1) h →
      (decorator D C).FreshCalls (decoratorGet A G) (fun s => (ec s.1).map (strip D)) s cs →
      ∃ out s', (decorator D C).calls (decoratorGet A G) s cs = .ok (out, s') ∧ Inv s'.1 ∧
        ((ec s'.1).map Prod.fst).Nodup ∧
        Ranked stamp clock (read s'.2) (ec s'.1) (h ++ cs.flatMap (used touch)) := by
  have hL := decorator_lawful D hD.faithful hC
  have hGL := decorator_getLawful (A := A) hA.1 hG
  induction cs with
  | nil => intro s h h1 h2 h3 _; exact ⟨[], s, rfl, h1, h2, by simpa using h3⟩
  | cons c cs ih =>
    intro s h h1 h2 h3 hf
    have hc := hcs c (by simp)
    obtain ⟨o1, s1, e1, -⟩ := hL.calls hGL [c] (fun x hx => by
      simp only [List.mem_singleton] at hx
      subst hx
      cases x with
      | op o => cases o <;> first | trivial | (intro f; trivial)
      | get k f => exact hc
      | getMut k f => exact hc) s h1
    have e1' : (decorator D C).call (decoratorGet A G) s c = .ok (o1, s1) := by
      simp only [Block.calls] at e1
      cases hcall : (decorator D C).call (decoratorGet A G) s c with
      | panic => simp [hcall] at e1
      | ok r =>
        obtain ⟨a, b⟩ := r
        simpa [hcall] using e1
    have hkeys : (((ec s.1).map (strip D)).map Prod.fst) = (ec s.1).map Prod.fst := by
      simp [strip, Function.comp_def]
    have hn : ((ec s.1).map Prod.fst ++ c.given.map Prod.fst).Nodup := by
      have := hf.1 (by rw [hkeys]; exact h2)
      rwa [List.map_append, hkeys] at this
    obtain ⟨i1, i2, i3⟩ := ranked_call hD hA hC hG h1 hc hn h3 e1'
    obtain ⟨o2, s2, e2, j1, j2, j3⟩ := ih (fun x hx => hcs x (by simp [hx])) s1 _ i1 i2 i3 (hf.2 _ _ e1')
    refine ⟨o1 ++ o2, s2, by simp [Block.calls, e1', e2], j1, j2, ?_⟩
    simpa using j3

end

/-! ## Histories of uses -/

/-- The last use of `x` is before the last use of `y`. -/
def Before (h : List K) (x y : K) : Prop := ∃ a b, h = a ++ b ∧ x ∈ a ∧ x ∉ b ∧ y ∈ b

theorem before_of_age {h : List K} {x y : K} (hx : x ∈ h) (hy : y ∈ h) (ha : age h y < age h x) :
    Before h x y := by
  unfold age at ha
  have hlen : h.reverse.idxOf y < h.reverse.length := List.idxOf_lt_length_iff.2 (by simpa using hy)
  refine ⟨(h.reverse.drop (h.reverse.idxOf y + 1)).reverse,
    (h.reverse.take (h.reverse.idxOf y + 1)).reverse, ?_, ?_, ?_, ?_⟩
  · rw [← List.reverse_append, List.take_append_drop, List.reverse_reverse]
  · rw [List.mem_reverse]
    have hx' : x ∈ h.reverse.take (h.reverse.idxOf y + 1) ++ h.reverse.drop (h.reverse.idxOf y + 1) := by
      rw [List.take_append_drop]; simpa using hx
    rcases List.mem_append.1 hx' with h1 | h1
    · exfalso
      have := List.idxOf_lt_length_iff.2 h1
      have h2 : h.reverse.idxOf x = (h.reverse.take (h.reverse.idxOf y + 1)).idxOf x := by
        conv_lhs => rw [← List.take_append_drop (h.reverse.idxOf y + 1) h.reverse]
        exact List.idxOf_append_of_mem h1
      rw [List.length_take] at this
      omega
    · exact h1
  · rw [List.mem_reverse]
    intro h1
    have := List.idxOf_lt_length_iff.2 h1
    have h2 : h.reverse.idxOf x = (h.reverse.take (h.reverse.idxOf y + 1)).idxOf x := by
      conv_lhs => rw [← List.take_append_drop (h.reverse.idxOf y + 1) h.reverse]
      exact List.idxOf_append_of_mem h1
    rw [List.length_take] at this
    omega
  · rw [List.mem_reverse, List.mem_take_iff_getElem]
    refine ⟨h.reverse.idxOf y, by omega, ?_⟩
    exact List.getElem_idxOf hlen

omit [DecidableEq K] in
theorem Before.append {h : List K} {x y : K} {l : List K} (hx : x ∈ h) (hxl : x ∉ l) (hy : y ∈ l) :
    Before (h ++ l) x y := ⟨h, l, rfl, hx, hxl, hy⟩

theorem Ranked.before [LinearOrder T] (hm : StrictMono clock) (hr : Ranked stamp clock fac items h)
    {x y : K × I} (hx : x ∈ items) (hy : y ∈ items) (hne : x.1 ≠ y.1) (hle : stamp x.2 ≤ stamp y.2) :
    Before h x.1 y.1 := by
  have := hr.older hm hx hy hne hle
  obtain ⟨idx, h1, -⟩ := hr
  exact before_of_age (h1 x hx).2.2 (h1 y hy).2.2 this

theorem Ranked.before_of_lt [LinearOrder T] (hm : Monotone clock) (hr : Ranked stamp clock fac items h)
    {x y : K × I} (hx : x ∈ items) (hy : y ∈ items) (hlt : stamp x.2 < stamp y.2) :
    Before h x.1 y.1 := by
  have := hr.older_of_lt hm hx hy hlt
  obtain ⟨idx, h1, -⟩ := hr
  exact before_of_age (h1 x hx).2.2 (h1 y hy).2.2 this

theorem Ranked.mem (hr : Ranked stamp clock fac items h) {x : K × I} (hx : x ∈ items) : x.1 ∈ h := by
  obtain ⟨idx, h1, -⟩ := hr
  exact (h1 x hx).2.2

end Byoc.Policy

namespace Byoc.Array

variable {K V : Type} [LE V] {sz : K × V → Nat} {srt srtS : Sorter (K × V)}

/-- What `pop` evicts is at least what it keeps. -/
theorem pop_order (hS : ∀ l, (srt.run l).Pairwise (fun a b => a.2 ≤ b.2)) {a : Array K V} (h : Inv sz a)
    {n out a'} (hp : a.pop sz srt n = .ok (out, a')) :
    (a'.values ++ out).Perm a.values ∧ ∀ y ∈ a'.values, ∀ x ∈ out, y.2 ≤ x.2 := by
  rcases pop_cases sz srt a n h with ⟨h1, h2⟩ | ⟨h1, h2, h3⟩ | ⟨h1, h2, p, q, h3, h4, h5, h6, h7⟩
  · rw [h2] at hp; cases hp; simp [h1]
  · rw [h3] at hp; cases hp; simp
  · rw [h7] at hp; cases hp
    have hpm := srt.perm a.values
    have ho := hS a.values
    rw [h3] at hpm ho
    exact ⟨hpm, (List.pairwise_append.1 ho).2.2⟩

/-- What `push` evicts is at least what it keeps, or older than what it keeps. -/
theorem push_order (hS : ∀ l, (srt.run l).Pairwise (fun a b => a.2 ≤ b.2))
    (hS' : ∀ l, (srtS.run l).Pairwise (fun a b => a.2 ≤ b.2)) {a : Array K V} (h : Inv sz a)
    {l out a'} (hp : a.push sz srt srtS l = .ok (out, a')) :
    (a'.values ++ out).Perm (a.values ++ l) ∧
    ∀ y ∈ a'.values, ∀ x ∈ out, (x ∈ a.values ∧ y ∈ l) ∨ y.2 ≤ x.2 := by
  rcases push_cases sz srt srtS a l h with ⟨h1, h2⟩ | ⟨h1, h2, h3⟩ |
      ⟨h1, p, q, h2, h3, h4, h5, h6⟩ | ⟨h1, h2, o, a1, h3, h4⟩
  · rw [h2] at hp; cases hp; simp
  · rw [h3] at hp; cases hp
    exact ⟨List.perm_append_comm, fun y hy x hx => .inl ⟨hx, hy⟩⟩
  · rw [h6] at hp; cases hp
    have hpm := srtS.perm l
    have ho := hS' l
    rw [h2] at hpm ho
    refine ⟨?_, ?_⟩
    · simp only
      perms [hpm]
    · intro y hy x hx
      rcases List.mem_append.1 hx with hx | hx
      · exact .inl ⟨hx, hpm.mem_iff.1 (List.mem_append_left _ hy)⟩
      · exact .inr ((List.pairwise_append.1 ho).2.2 y hy x hx)
  · rw [h4] at hp; cases hp
    obtain ⟨g1, g2⟩ := pop_order hS h h3
    refine ⟨?_, ?_⟩
    · simp only
      perms [g1]
    · intro y hy x hx
      rcases List.mem_append.1 hy with hy | hy
      · exact .inr (g2 y hy x hx)
      · exact .inl ⟨g1.mem_iff.1 (List.mem_append_right _ hx), hy⟩

end Byoc.Array
