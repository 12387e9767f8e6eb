import Verif.Model.Cells
import Verif.Proofs.Policies
import Verif.Proofs.Compressed

/-!
# Proofs about cells used any number of times
-/

namespace Byoc

variable {K V T : Type}

/-- Elements a session hands to the container. -/
def Session.given : Session K V → List (K × V)
  | .op o => o.given
  | _ => []

/-- Every pushed batch has distinct keys, none of which is stored. -/
def Block.FreshSessions {B : Block K V} (G : CellOps B) (elems : B.State → List (K × V)) :
    B.State → List (Session K V) → Prop
  | _, [] => True
  | s, x :: xs => ((elems s ++ x.given).map Prod.fst).Nodup ∧
      ∀ out s', Block.session G s x = .ok (out, s') → Block.FreshSessions G elems s' xs

/-- Looking `k` up and using the cell: never panics, finds a value exactly when the key is stored, and
changes the value of this element only, to what the uses of the cell made of it if they are `lasting`
(which depends on which of them are mutable). -/
def CellLaw (B : Block K V) (op : B.State → K → List (Touch V) → Res (Option V × B.State))
    (Inv : B.State → Prop) (elems : B.State → List (K × V)) (Pre : List (Touch V) → Prop)
    (lasting : List Bool → Bool) : Prop :=
  ∀ s k ts, Inv s → Pre ts → ∃ o s', op s k ts = .ok (o, s') ∧ Inv s' ∧
    B.capacity s' = B.capacity s ∧
    match o with
    | none => ¬ HasKey (elems s) k ∧ (elems s').Perm (elems s)
    | some v => ∃ rest, (elems s).Perm ((k, v) :: rest) ∧
      (elems s').Perm ((k, if lasting (ts.map Touch.mutably) then effect ts v else v) :: rest)

theorem Access.touches_mutably {D : Decoration V} (A : Access D) (ts : List (Touch V)) :
    ∀ fac, (A.touches fac ts).map Touch.mutably = ts.map Touch.mutably := by
  induction ts with
  | nil => intro _; rfl
  | cons t ts ih => intro fac; simp [Access.touches, ih]

theorem effect_unwrap {D : Decoration V} {A : Access D}
    (hA : ∀ fac f i, D.unwrap (A.access fac f i) = f (D.unwrap i)) (ts : List (Touch V)) :
    ∀ fac i, D.unwrap (effect (A.touches fac ts) i) = effect ts (D.unwrap i) := by
  induction ts with
  | nil => intro _ _; rfl
  | cons t ts ih => intro fac i; simp [Access.touches, effect, ih, hA]

end Byoc

namespace Byoc.Policy

variable {K V T I : Type} [DecidableEq K]

section
variable {stamp : I → T} {clock : Nat → T} {fac : Nat} {items items' : List (K × I)} {h : List K}

omit [DecidableEq K] in
theorem Ranked.later [DecidableEq K] (hr : Ranked stamp clock fac items h) {fac' : Nat} (hf : fac ≤ fac') :
    Ranked stamp clock fac' items h := by
  obtain ⟨idx, h1, h2⟩ := hr
  exact ⟨idx, fun e he => ⟨(h1 e he).1, lt_of_lt_of_le (h1 e he).2.1 hf, (h1 e he).2.2⟩, h2⟩
end

section
variable {D : Decoration V} {A : Access D} {stamp : D.Item → T} {clock : Nat → T}
  {read : D.Factory → Nat}

omit [DecidableEq K] in
theorem touches_stamp (hA : Accesses D A stamp clock read true) (ts : List (Touch V)) :
    ∀ fac i, read (A.ticks fac ts) = read fac + ts.length ∧
      (ts ≠ [] → stamp (effect (A.touches fac ts) i) = clock (read fac + ts.length - 1)) := by
  induction ts with
  | nil => intro fac i; exact ⟨rfl, fun h => absurd rfl h⟩
  | cons t ts ih =>
    intro fac i
    have h1 := hA.2 fac t.eff i
    simp only [if_true] at h1
    obtain ⟨h2, h3⟩ := ih (A.tick fac) (A.access fac t.eff i)
    constructor
    · simp only [Access.ticks, h2, h1.2, List.length_cons]; omega
    · intro _
      simp only [Access.touches, effect]
      by_cases hts : ts = []
      · subst hts; simpa [effect, Access.touches] using h1.1
      · rw [h3 hts, h1.2]
        congr 1
        simp only [List.length_cons]; omega

omit [DecidableEq K] in
theorem touches_same (hA : Accesses D A stamp clock read false) (ts : List (Touch V)) :
    ∀ fac i, read (A.ticks fac ts) = read fac ∧ stamp (effect (A.touches fac ts) i) = stamp i := by
  induction ts with
  | nil => intro fac i; exact ⟨rfl, rfl⟩
  | cons t ts ih =>
    intro fac i
    have h1 := hA.2 fac t.eff i
    simp only [Bool.false_eq_true, if_false] at h1
    obtain ⟨h2, h3⟩ := ih (A.tick fac) (A.access fac t.eff i)
    exact ⟨by simp only [Access.ticks, h2, h1.2], by simp only [Access.touches, effect, h3, h1.1]⟩

theorem le_ticks {touch : Bool} (hA : Accesses D A stamp clock read touch) (ts : List (Touch V)) (fac)
    (i : D.Item) : read (A.ticks fac ts) ≤ read fac + if touch then ts.length else 0 := by
  cases touch with
  | true => rw [(touches_stamp hA ts fac i).1]; simp
  | false => rw [(touches_same hA ts fac i).1]; simp

theorem ticks_le {touch : Bool} (hA : Accesses D A stamp clock read touch) (ts : List (Touch V)) (fac)
    (i : D.Item) : read fac ≤ read (A.ticks fac ts) := by
  cases touch with
  | true => rw [(touches_stamp hA ts fac i).1]; omega
  | false => rw [(touches_same hA ts fac i).1]

/-- The keys a session uses, as the policy sees it: pushed, or, if `touch`, looked up with a cell used
at least once and whose uses last. -/
def usedIn (touch : Bool) (lastG lastM : List Bool → Bool) : Session K V → List K
  | .op o => o.given.map Prod.fst
  | .get k n => if touch && decide (n ≠ 0) && lastG (List.replicate n false) then [k] else []
  | .getMut k us => if touch && !us.isEmpty && lastM (us.map fun u => u.touch.mutably) then [k] else []

/-- How many times a session reads the clock, at most: once for each element pushed and, if `touch`,
each use of a cell. -/
def readings (touch : Bool) : Session K V → Nat
  | .op o => o.given.length
  | .get _ n => if touch then n else 0
  | .getMut _ us => if touch then us.length else 0

omit [DecidableEq K] in
theorem wrapAll_read (hD : Stamps D stamp clock read) (l : List (K × V)) :
    ∀ fac, read (Byoc.wrapAll D fac l).2 = read fac + l.length := by
  induction l with
  | nil => intro fac; rfl
  | cons e l ih =>
    intro fac
    obtain ⟨k, v⟩ := e
    simp only [Byoc.wrapAll, ih, (hD.wrap fac v).2, List.length_cons]
    omega

variable {C : Block K D.Item} {G : CellOps C} {Inv : C.State → Prop} {touch : Bool}
  {ec : C.State → List (K × D.Item)} {Pre : List (Touch D.Item) → Prop} {lastG lastM : List Bool → Bool}

/-- One lookup keeps the ranking. -/
theorem ranked_cell (hA : Accesses D A stamp clock read touch)
    {op : C.State → K → List (Touch D.Item) → Res (Option D.Item × C.State)} {last : List Bool → Bool}
    (hop : CellLaw C op Inv ec Pre last) {s : C.State} {fac : D.Factory} {k : K} {ts : List (Touch V)}
    {h : List K} (hs : Inv s) (hf : Pre (A.touches fac ts))
    (hn : ((ec s).map Prod.fst).Nodup) (hr : Ranked stamp clock (read fac) (ec s) h) :
    ∃ o s', op s k (A.touches fac ts) = .ok (o, s') ∧ Inv s' ∧ C.capacity s' = C.capacity s ∧
      ((ec s').map Prod.fst).Perm ((ec s).map Prod.fst) ∧
      read (if o.isSome then A.ticks fac ts else fac) ≤ read fac + (if touch then ts.length else 0) ∧
      Ranked stamp clock (read (if o.isSome then A.ticks fac ts else fac)) (ec s')
        (h ++ if touch && !ts.isEmpty && last (ts.map Touch.mutably) then [k] else []) := by
  obtain ⟨o, s1, h1, h2, h3, h4⟩ := hop s k (A.touches fac ts) hs hf
  rw [A.touches_mutably] at h4
  refine ⟨o, s1, h1, h2, h3, ?_⟩
  cases o with
  | none =>
    refine ⟨h4.2.map Prod.fst, by simp, ?_⟩
    have hr' := hr.sub (items' := ec s1) (fun e he => h4.2.mem_iff.1 he)
    simp only [Option.isSome_none, Bool.false_eq_true, if_false]
    split
    · refine hr'.miss ?_
      rintro ⟨k', v'⟩ hm rfl
      exact h4.1 ⟨v', h4.2.mem_iff.1 hm⟩
    · simpa using hr'
  | some i =>
    obtain ⟨rest, r1, r2⟩ := h4
    have hk : (((k, i) :: rest).map Prod.fst).Nodup := (r1.map Prod.fst).nodup_iff.1 hn
    have hk' : ∀ e ∈ rest, e.1 ≠ k := by
      intro e he heq
      simp only [List.map_cons, List.nodup_cons] at hk
      exact hk.1 (heq ▸ List.mem_map_of_mem he)
    refine ⟨(r2.map Prod.fst).trans (by simpa using (r1.map Prod.fst).symm),
      le_ticks hA ts fac i, ?_⟩
    simp only [Option.isSome_some, if_true]
    have keep : ∀ j, stamp j = stamp i → (ec s1).Perm ((k, j) :: rest) →
        Ranked stamp clock (read (A.ticks fac ts)) (ec s1) h := fun j hj hp =>
      ((hr.same r1 hj).later (ticks_le hA ts fac i)).sub (fun e he => hp.mem_iff.1 he)
    by_cases hl : last (ts.map Touch.mutably) = true
    · rw [if_pos hl] at r2
      cases touch with
      | false => simpa using keep _ (touches_same hA ts fac i).2 r2
      | true =>
        by_cases ht : ts = []
        · subst ht
          simpa using keep i rfl r2
        · obtain ⟨t1, t2⟩ := touches_stamp hA ts fac i
          have hpos : 0 < ts.length := List.length_pos_of_ne_nil ht
          rw [if_pos (by simp [ht, hl]), t1]
          have hr1 := (hr.later (fac' := read fac + ts.length - 1) (by omega)).sub (items' := rest)
            (fun e he => r1.mem_iff.2 (by simp [he]))
          have hr2 := hr1.mark hk' (t2 ht)
          rw [show read fac + ts.length - 1 + 1 = read fac + ts.length by omega] at hr2
          exact hr2.sub (fun e he => r2.mem_iff.1 he)
    · rw [if_neg hl] at r2
      simpa [hl] using keep i rfl r2

omit [DecidableEq K] in
/-- The call the decorator makes on the container. -/
def wrapOp (D : Decoration V) (fac : D.Factory) : Op K V → Op K D.Item
  | .push l => .push (Byoc.wrapAll D fac l).1
  | .take k => .take k
  | .takeMultiple ks => .takeMultiple ks
  | .pop n => .pop n
  | .flush => .flush
  | .contains k => .contains k

omit [DecidableEq K] in
theorem decorator_step {s s' : C.State} {fac : D.Factory} {o : Op K V} {out : List (K × D.Item)}
    (h : C.step s (wrapOp D fac o) = .ok (out, s')) :
    (decorator D C).step (s, fac) o = .ok (out.map (strip D), (s', (Byoc.wrapAll D fac o.given).2)) := by
  cases o with
  | contains k =>
    simp only [wrapOp, Block.step] at h
    cases hc : C.contains s k with
    | panic => simp [hc] at h
    | ok r =>
      simp only [hc, Res.ok_bind, Res.pure_eq, Res.ok.injEq, Prod.mk.injEq] at h
      obtain ⟨rfl, rfl⟩ := h
      simp only [Block.step, decorator, hc, Res.ok_bind]; rfl
  | take k =>
    simp only [wrapOp, Block.step] at h
    cases hc : C.take s k with
    | panic => simp [hc] at h
    | ok r =>
      simp only [hc, Res.ok_bind, Res.pure_eq, Res.ok.injEq, Prod.mk.injEq] at h
      obtain ⟨rfl, rfl⟩ := h
      simp only [Block.step, decorator, hc, Res.ok_bind]
      cases r.1 <;> rfl
  | takeMultiple ks =>
    simp only [wrapOp, Block.step] at h
    cases hc : C.takeMultiple s ks with
    | panic => simp [hc] at h
    | ok r =>
      simp only [hc, Res.ok_bind, Res.pure_eq, Res.ok.injEq, Prod.mk.injEq] at h
      obtain ⟨rfl, rfl⟩ := h
      simp only [Block.step, decorator, hc, Res.ok_bind]; rfl
  | pop n =>
    replace h : C.pop s n = .ok (out, s') := h
    simp only [Block.step, decorator, h, Res.ok_bind]; rfl
  | push l =>
    replace h : C.push s (Byoc.wrapAll D fac l).1 = .ok (out, s') := h
    simp only [Block.step, decorator, h, Res.ok_bind]; rfl
  | flush =>
    replace h : C.flush s = .ok (out, s') := h
    simp only [Block.step, decorator, h, Res.ok_bind]; rfl

omit [DecidableEq K] in
theorem wrapOp_given (fac : D.Factory) (o : Op K V) :
    (wrapOp D fac o).given = (Byoc.wrapAll D fac o.given).1 := by
  cases o <;> rfl

omit [DecidableEq K] in
/-- What the ranking needs of a container: calls do not panic, elements stored after a call were stored
before or given. -/
def Keeps (C : Block K D.Item) (Inv : C.State → Prop) (ec : C.State → List (K × D.Item)) : Prop :=
  ∀ s o, Inv s → ((ec s ++ o.given).map Prod.fst).Nodup → ∃ out s', C.step s o = .ok (out, s') ∧
    Inv s' ∧ ∀ e ∈ ec s', e ∈ ec s ++ o.given

omit [DecidableEq K] in
theorem Lawful.keeps {C : Block K D.Item} {Inv : C.State → Prop} {ec : C.State → List (K × D.Item)}
    (hC : Lawful C Inv ec (fun _ => False))
    (hpush : ∀ s l, Inv s → ((ec s ++ l).map Prod.fst).Nodup → ∃ out s', C.push s l = .ok (out, s') ∧
      Inv s' ∧ C.capacity s' = C.capacity s ∧ (ec s' ++ out).Perm (ec s ++ l)) : Keeps C Inv ec := by
  have shrink : ∀ {s s1 : C.State} {l : List (K × D.Item)}, (ec s1 ++ l).Perm (ec s) →
      ∀ e ∈ ec s1, e ∈ ec s ++ [] := by
    intro s s1 l hp e he
    rw [List.append_nil]
    exact hp.mem_iff.1 (by simp [he])
  intro s o hs hn
  cases o with
  | contains k =>
    obtain ⟨b, s1, h1, h2, -, -, h3, -⟩ := hC.contains s k hs
    exact ⟨_, s1, by simp only [Block.step, h1, Res.ok_bind]; rfl, h2, shrink (l := []) (by simp [h3])⟩
  | take k =>
    obtain ⟨o, s1, h1, h2, -, h3⟩ := hC.take s k hs
    refine ⟨_, s1, by simp only [Block.step, h1, Res.ok_bind]; rfl, h2, ?_⟩
    cases o with
    | none => exact shrink (l := []) (by simpa using h3.2)
    | some e => exact shrink (l := [e]) ((List.perm_append_singleton _ _).trans h3.2)
  | takeMultiple ks =>
    obtain ⟨o, ks', s1, h1, h2, -, h3, -⟩ := hC.takeMultiple s ks hs
    exact ⟨_, s1, by simp only [Block.step, h1, Res.ok_bind]; rfl, h2, shrink h3⟩
  | pop n =>
    obtain ⟨o, s1, h1, h2, -, h3, -⟩ := hC.pop s n hs
    exact ⟨_, s1, h1, h2, shrink h3⟩
  | flush =>
    obtain ⟨o, s1, h1, h2, -, h3⟩ := hC.flush s hs
    exact ⟨_, s1, h1, h2, shrink h3⟩
  | push l =>
    obtain ⟨o, s1, h1, h2, -, h3⟩ := hpush s l hs hn
    exact ⟨_, s1, h1, h2, fun e he => h3.mem_iff.1 (by simp [he])⟩

/-- One session keeps the ranking. -/
theorem ranked_session (hD : Stamps D stamp clock read) (hA : Accesses D A stamp clock read touch)
    (hC : Keeps C Inv ec) (hd : ∀ s, Inv s → ((ec s).map Prod.fst).Nodup)
    (hget : CellLaw C G.get Inv ec Pre lastG) (hmut : CellLaw C G.getMut Inv ec Pre lastM)
    {s : C.State × D.Factory} {x : Session K V} {h : List K} (hs : Inv s.1)
    (hc : match x with
      | .op _ => True
      | .get _ n => Pre (A.touches s.2 (List.replicate n Use.read.touch))
      | .getMut _ us => Pre (A.touches s.2 (us.map Use.touch)))
    (hn : ((ec s.1).map Prod.fst ++ x.given.map Prod.fst).Nodup)
    (hr : Ranked stamp clock (read s.2) (ec s.1) h) :
    ∃ out s', Block.session (decoratorCells A G) s x = .ok (out, s') ∧ Inv s'.1 ∧
      read s'.2 ≤ read s.2 + readings touch x ∧
      Ranked stamp clock (read s'.2) (ec s'.1) (h ++ usedIn touch lastG lastM x) := by
  obtain ⟨s, fac⟩ := s
  have hn0 := hd s hs
  cases x with
  | get k n =>
    obtain ⟨o, s1, h1, h2, -, -, hb, h4⟩ := ranked_cell hA hget (k := k)
      (ts := List.replicate n Use.read.touch) hs hc hn0 hr
    refine ⟨[], (s1, _), by simp only [Block.session, decoratorCells, h1, Res.ok_bind]; rfl, h2,
      by simpa [readings] using hb, ?_⟩
    have e : (List.replicate n (Use.read.touch : Touch V)).map Touch.mutably = List.replicate n false := by
      simp [Use.touch]
    rw [e] at h4
    have e2 : (!(List.replicate n (Use.read.touch : Touch V)).isEmpty) = decide (n ≠ 0) := by
      cases n <;> simp [List.replicate_succ]
    rw [e2] at h4
    exact h4
  | getMut k us =>
    obtain ⟨o, s1, h1, h2, -, -, hb, h4⟩ := ranked_cell hA hmut (k := k) (ts := us.map Use.touch) hs hc
      hn0 hr
    refine ⟨[], (s1, _), by simp only [Block.session, decoratorCells, h1, Res.ok_bind]; rfl, h2,
      by simpa [readings] using hb, ?_⟩
    rw [List.map_map] at h4
    have e2 : (!(us.map Use.touch).isEmpty) = !us.isEmpty := by cases us <;> rfl
    rw [e2] at h4
    exact h4
  | op o =>
    replace hn : ((ec s).map Prod.fst ++ o.given.map Prod.fst).Nodup := hn
    obtain ⟨out, s1, h1, h2, h3⟩ := hC s (wrapOp D fac o) hs
      (by rw [wrapOp_given, List.map_append, wrapAll_keys]; exact hn)
    rw [wrapOp_given] at h3
    exact ⟨_, _, decorator_step h1, h2, (wrapAll_read hD o.given fac).le,
      (hD.wrapAll o.given fac (ec s) h hn hr).sub h3⟩

/-- Every use allowed by `P`. -/
def Session.Within (P : List (Touch V) → Prop) : Session K V → Prop
  | .op _ => True
  | .get _ n => P (List.replicate n Use.read.touch)
  | .getMut _ us => P (us.map Use.touch)

/-- A history of sessions keeps the ranking. -/
theorem ranked_sessions (hD : Stamps D stamp clock read) (hA : Accesses D A stamp clock read touch)
    (hC : Keeps C Inv ec) (hd : ∀ s, Inv s → ((ec s).map Prod.fst).Nodup)
    (hget : CellLaw C G.get Inv ec Pre lastG) (hmut : CellLaw C G.getMut Inv ec Pre lastM)
    {N : Nat} (xs : List (Session K V)) (hxs : ∀ x ∈ xs, Session.Within (fun ts => ∀ fac,
      (read fac + if touch then ts.length else 0) ≤ N → Pre (A.touches fac ts)) x)
    {elems : (decorator D C).State → List (K × V)} (hel : ∀ s, Inv s.1 → (elems s).Perm ((ec s.1).map (strip D))) :
    ∀ (s : C.State × D.Factory) (h : List K), Inv s.1 → Ranked stamp clock (read s.2) (ec s.1) h →
      read s.2 + (xs.map (readings touch)).sum ≤ N → Block.FreshSessions (decoratorCells A G) elems s xs →
      ∃ out s', Block.sessions (decoratorCells A G) s xs = .ok (out, s') ∧ Inv s'.1 ∧
        read s'.2 ≤ read s.2 + (xs.map (readings touch)).sum ∧
        Ranked stamp clock (read s'.2) (ec s'.1) (h ++ xs.flatMap (usedIn touch lastG lastM)) := by
  induction xs with
  | nil => intro s h h1 h3 _ _; exact ⟨[], s, rfl, h1, by simp, by simpa using h3⟩
  | cons x xs ih =>
    intro s h h1 h3 hN hf
    rw [List.map_cons, List.sum_cons] at hN ⊢
    have hkeys : (((ec s.1).map (strip D)).map Prod.fst) = (ec s.1).map Prod.fst := by
      simp [strip, Function.comp_def]
    have hn : ((ec s.1).map Prod.fst ++ x.given.map Prod.fst).Nodup := by
      have := hf.1
      rw [List.map_append] at this
      rw [← hkeys]
      exact (((hel s h1).map Prod.fst).append_right _).nodup_iff.1 this
    obtain ⟨o1, s1, e1, i1, ib, i3⟩ := ranked_session hD hA hC hd hget hmut h1
      (x := x) (by
        have := hxs x (by simp)
        cases x with
        | op o => trivial
        | get k n => exact this s.2 (by simp only [readings] at hN; simp only [List.length_replicate]; omega)
        | getMut k us => exact this s.2 (by simp only [readings] at hN; simp only [List.length_map]; omega))
      hn h3
    obtain ⟨o2, s2, e2, j1, jb, j3⟩ := ih (fun x hx => hxs x (by simp [hx])) s1 _ i1 i3 (by omega) (hf.2 _ _ e1)
    refine ⟨o1 ++ o2, s2, by simp [Block.sessions, e1, e2], j1, by omega, ?_⟩
    simpa using j3

end
end Byoc.Policy

namespace Byoc

variable {K V : Type}

theorem nodup_left {l l' out : List (K × V)} (hp : (l' ++ out).Perm l) (hn : (l.map Prod.fst).Nodup) :
    (l'.map Prod.fst).Nodup := by
  have := (hp.map Prod.fst).nodup_iff.2 hn
  rw [List.map_append] at this
  exact (List.nodup_append.1 this).1

/-- The contract among states with distinct keys. -/
theorem Lawful.distinctKeys {B : Block K V} {Inv elems} (h : Lawful B Inv elems (fun _ => True)) :
    Lawful B (fun s => Inv s ∧ ((elems s).map Prod.fst).Nodup) elems (fun _ => False) where
  bounded s hs := h.bounded s hs.1
  empty_size s hs he := h.empty_size s hs.1 he
  contains s k hs := by
    obtain ⟨b, s', h1, h2, h3, h4, h5, h6⟩ := h.contains s k hs.1
    exact ⟨b, s', h1, ⟨h2, by rw [h5]; exact hs.2⟩, h3, h4, h5, h6⟩
  take s k hs := by
    obtain ⟨o, s', h1, h2, h3, h4⟩ := h.take s k hs.1
    refine ⟨o, s', h1, ⟨h2, ?_⟩, h3, h4⟩
    cases o with
    | none => exact nodup_left (out := []) (by simpa using h4.2) hs.2
    | some e => exact nodup_left (out := [e]) ((List.perm_append_singleton _ _).trans h4.2) hs.2
  takeMultiple s ks hs := by
    obtain ⟨out, ks', s', h1, h2, h3, h4, h5⟩ := h.takeMultiple s ks hs.1
    exact ⟨out, ks', s', h1, ⟨h2, nodup_left h4 hs.2⟩, h3, h4, h5⟩
  push s l hs hf := hf.elim
  flush s hs := by
    obtain ⟨out, s', h1, h2, h3, h4⟩ := h.flush s hs.1
    exact ⟨out, s', h1, ⟨h2, nodup_left h4 hs.2⟩, h3, h4⟩
  pop s n hs := by
    obtain ⟨out, s', h1, h2, h3, h4, h5⟩ := h.pop s n hs.1
    exact ⟨out, s', h1, ⟨h2, nodup_left h4 hs.2⟩, h3, h4, h5⟩

/-- A container whose cells show the stored value itself. -/
theorem AccessLaw.cellLaw {B : Block K V} {op : B.State → K → (V → V) → Res (Option V × B.State)} {Inv elems}
    {PreF : (V → V) → Prop} (h : AccessLaw B op Inv elems PreF) :
    CellLaw B (fun s k ts => op s k (effect ts)) (fun s => Inv s ∧ ((elems s).map Prod.fst).Nodup) elems
      (fun ts => PreF (effect ts)) (fun _ => true) := by
  intro s k ts hs hf
  obtain ⟨o, s', h1, h2, h3, h4⟩ := h s k (effect ts) hs.1 hf
  obtain ⟨o1, s1, g1, -, -, g4⟩ := h.keys s k (effect ts) hs.1 hf
  rw [h1] at g1
  cases g1
  refine ⟨o, s', h1, ⟨h2, g4.nodup_iff.2 hs.2⟩, h3, ?_⟩
  cases o with
  | none => exact h4
  | some v => simpa using h4

namespace Array

variable [LinearOrder K]

theorem getMut_nil (a : Array K V) (k : K) : (a.getMut k (effect [])).2 = a := by
  unfold getMut
  cases hf : findKey a.values k with
  | none => rfl
  | some i =>
    simp only
    cases hi : a.values[i]? with
    | none => rfl
    | some e =>
      obtain ⟨hl, he⟩ := List.getElem?_eq_some_iff.1 hi
      simp only [effect]
      have : a.values.set i (e.1, e.2) = a.values := by
        rw [show (e.1, e.2) = a.values[i] from he.symm]; simp
      rw [this]

theorem findKey_set {l : List (K × V)} {k : K} {i : Nat} {e : K × V} {v : V} (h : findKey l k = some i)
    (hi : l[i]? = some e) : findKey (l.set i (e.1, v)) k = some i := by
  induction l generalizing i with
  | nil => simp at hi
  | cons x l ih =>
    unfold findKey at h ⊢
    by_cases hx : x.1 = k
    · simp only [List.findIdx?_cons, hx, decide_true, if_true, Option.some.injEq] at h
      subst h
      simp only [List.getElem?_cons_zero, Option.some.injEq] at hi
      subst hi
      simp [List.findIdx?_cons, hx]
    · simp only [List.findIdx?_cons, hx, decide_false, Bool.false_eq_true, if_false] at h
      cases hl : List.findIdx? (fun e => decide (e.1 = k)) l with
      | none => simp [hl] at h
      | some j =>
        simp only [hl, Option.map_some, Option.some.injEq] at h
        subst h
        simp only [List.getElem?_cons_succ] at hi
        have := ih (i := j) (by unfold findKey; exact hl) hi
        unfold findKey at this
        simp [List.findIdx?_cons, hx, this]

/-- Looking the same key up twice, or using the cell twice. -/
theorem getMut_getMut (a : Array K V) (k : K) (f : V → V) (g : V → V) :
    ((a.getMut k f).2.getMut k g).2 = (a.getMut k (fun v => g (f v))).2 ∧
    ((a.getMut k f).2.getMut k g).1.isSome = (a.getMut k f).1.isSome := by
  cases hf : findKey a.values k with
  | none =>
    have h1 : ∀ f', a.getMut k f' = (none, a) := fun f' => by simp [getMut, hf]
    simp [h1]
  | some i =>
    cases hi : a.values[i]? with
    | none =>
      have h1 : ∀ f', a.getMut k f' = (none, a) := fun f' => by simp [getMut, hf, hi]
      simp [h1]
    | some e =>
      have h1 : ∀ f', a.getMut k f' = (some e.2, { a with values := a.values.set i (e.1, f' e.2) }) :=
        fun f' => by simp [getMut, hf, hi]
      obtain ⟨hl, -⟩ := List.getElem?_eq_some_iff.1 hi
      rw [h1, h1]
      simp only [getMut, findKey_set hf hi]
      rw [List.getElem?_set_self hl]
      simp

end Array

end Byoc
