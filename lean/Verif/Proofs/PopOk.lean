import Verif.Proofs.Stack

/-! # Containers whose `pop` may panic (`Associative`), when it returns -/

namespace Byoc

variable {K V : Type}

/-- When `pop` returns, it returns what it removes. -/
def PopOk (B : Block K V) (Inv : B.State → Prop) (elems : B.State → List (K × V)) : Prop :=
  ∀ s n out s', Inv s → B.pop s n = .ok (out, s') →
    Inv s' ∧ B.capacity s' = B.capacity s ∧ (elems s' ++ out).Perm (elems s)

theorem Lawful.popOk {B : Block K V} {Inv elems Pre} (h : Lawful B Inv elems Pre) :
    PopOk B Inv elems := by
  intro s n out s' hs he
  obtain ⟨o, s1, h1, h2, h3, h4, -⟩ := h.pop s n hs
  rw [h1] at he; cases he
  exact ⟨h2, h3, h4⟩

theorem PopOk.withCapacity {B : Block K V} {Inv elems} (h : PopOk B Inv elems) (q : Nat → Prop) :
    PopOk B (fun s => Inv s ∧ q (B.capacity s)) elems := by
  intro s n out s' hs he
  obtain ⟨h1, h2, h3⟩ := h s n out s' hs.1 he
  exact ⟨⟨h1, h2 ▸ hs.2⟩, h2, h3⟩

/-- One call that returned. -/
theorem Core.step_ok {B : Block K V} {Inv elems Pre} (h : Core B Inv elems Pre)
    (hp : PopOk B Inv elems) (s : B.State) (hs : Inv s) (op : Op K V) (hop : op.Ok Pre)
    (out : List (K × V)) (s' : B.State) (he : B.step s op = .ok (out, s')) :
    Inv s' ∧ B.capacity s' = B.capacity s ∧ (elems s' ++ out).Perm (elems s ++ op.given) := by
  by_cases hnp : op.NotPop
  · obtain ⟨o, s1, h1, h2, h3, h4⟩ := h.step s hs op hop hnp
    rw [h1] at he; cases he
    exact ⟨h2, h3, h4⟩
  · cases op with
    | pop n =>
      obtain ⟨h1, h2, h3⟩ := hp s n out s' hs he
      exact ⟨h1, h2, by simpa [Op.given] using h3⟩
    | _ => exact absurd trivial hnp

/-- A history of calls and accesses that returned. -/
theorem Core.calls_ok {B : Block K V} {G : GetOps B} {Inv elems Pre PreF} (h : Core B Inv elems Pre)
    (hp : PopOk B Inv elems) (g : GetLawful B G Inv elems PreF) (cs : List (Call K V))
    (hcs : ∀ c ∈ cs, c.Ok Pre PreF) :
    ∀ (s : B.State) (out : List (K × V)) (s' : B.State), Inv s → B.calls G s cs = .ok (out, s') →
      Inv s' ∧ B.capacity s' = B.capacity s ∧
      ((elems s' ++ out).map Prod.fst).Perm ((elems s ++ cs.flatMap Call.given).map Prod.fst) := by
  induction cs with
  | nil => intro s out s' hs he; cases he; exact ⟨hs, rfl, by simp⟩
  | cons c cs ih =>
    intro s out s' hs he
    have hc := hcs c (by simp)
    simp only [Block.calls] at he
    cases h1 : B.call G s c with
    | panic => simp [h1] at he
    | ok r =>
      obtain ⟨o1, s1⟩ := r
      have key : Inv s1 ∧ B.capacity s1 = B.capacity s ∧
          ((elems s1 ++ o1).map Prod.fst).Perm ((elems s ++ c.given).map Prod.fst) := by
        cases c with
        | op o =>
          obtain ⟨a1, a2, a3⟩ := h.step_ok hp s hs o hc o1 s1 h1
          exact ⟨a1, a2, a3.map _⟩
        | get k f =>
          obtain ⟨o, s2, g1, g2, g3, g4⟩ := g.get.keys s k f hs hc
          simp only [Block.call, g1, Res.ok_bind, Res.pure_eq, Res.ok.injEq] at h1
          cases h1
          exact ⟨g2, g3, by simpa [Call.given] using g4⟩
        | getMut k f =>
          obtain ⟨o, s2, g1, g2, g3, g4⟩ := g.getMut.keys s k f hs hc
          simp only [Block.call, g1, Res.ok_bind, Res.pure_eq, Res.ok.injEq] at h1
          cases h1
          exact ⟨g2, g3, by simpa [Call.given] using g4⟩
      simp only [h1, Res.ok_bind] at he
      cases h2 : B.calls G s1 cs with
      | panic => simp [h2] at he
      | ok r =>
        obtain ⟨o2, s2⟩ := r
        simp only [h2, Res.ok_bind, Res.pure_eq, Res.ok.injEq] at he
        cases he
        obtain ⟨a1, a2, a3⟩ := key
        obtain ⟨b1, b2, b3⟩ := ih (fun o ho => hcs o (by simp [ho])) _ _ _ a1 h2
        refine ⟨b1, b2.trans a2, ?_⟩
        simp only [List.flatMap_cons, List.map_append] at a3 b3 ⊢
        perms [a3, b3]

/-- A call other than `pop`. -/
def Call.NotPop : Call K V → Prop
  | .op o => o.NotPop
  | _ => True

/-- Histories of calls and accesses without `pop`: no panic. -/
theorem Core.calls {B : Block K V} {G : GetOps B} {Inv elems Pre PreF} (h : Core B Inv elems Pre)
    (g : GetLawful B G Inv elems PreF) (cs : List (Call K V))
    (hcs : ∀ c ∈ cs, c.Ok Pre PreF ∧ c.NotPop) :
    ∀ (s : B.State) (_ : Inv s), ∃ out s', B.calls G s cs = .ok (out, s') ∧ Inv s' ∧
      B.size s' ≤ B.capacity s' ∧ B.capacity s' = B.capacity s ∧
      ((elems s' ++ out).map Prod.fst).Perm ((elems s ++ cs.flatMap Call.given).map Prod.fst) := by
  induction cs with
  | nil => intro s hs; exact ⟨[], s, rfl, hs, h.bounded s hs, rfl, by simp⟩
  | cons c cs ih =>
    intro s hs
    have key : ∃ out s', B.call G s c = .ok (out, s') ∧ Inv s' ∧ B.capacity s' = B.capacity s ∧
        ((elems s' ++ out).map Prod.fst).Perm ((elems s ++ c.given).map Prod.fst) := by
      obtain ⟨hc, hnp⟩ := hcs c (by simp)
      cases c with
      | op o =>
        obtain ⟨out, s', h1, h2, h3, h4⟩ := h.step s hs o hc hnp
        exact ⟨out, s', h1, h2, h3, h4.map _⟩
      | get k f =>
        obtain ⟨o, s', h1, h2, h3, h4⟩ := g.get.keys s k f hs hc
        exact ⟨[], s', by simp [Block.call, h1], h2, h3, by simpa [Call.given] using h4⟩
      | getMut k f =>
        obtain ⟨o, s', h1, h2, h3, h4⟩ := g.getMut.keys s k f hs hc
        exact ⟨[], s', by simp [Block.call, h1], h2, h3, by simpa [Call.given] using h4⟩
    obtain ⟨out, s1, h1, h2, h3, h4⟩ := key
    obtain ⟨outs, s2, g1, g2, g3, g4, g5⟩ := ih (fun o ho => hcs o (by simp [ho])) s1 h2
    refine ⟨out ++ outs, s2, by simp [Block.calls, h1, g1], g2, g3, g4.trans h3, ?_⟩
    simp only [List.flatMap_cons, List.map_append] at h4 g5 ⊢
    perms [h4, g5]

/-- A history that returned. -/
theorem Core.run_ok {B : Block K V} {Inv elems Pre} (h : Core B Inv elems Pre)
    (hp : PopOk B Inv elems) (ops : List (Op K V)) (hops : ∀ op ∈ ops, op.Ok Pre) :
    ∀ (s : B.State) (out : List (K × V)) (s' : B.State), Inv s → B.run s ops = .ok (out, s') →
      Inv s' ∧ B.capacity s' = B.capacity s ∧
      (elems s' ++ out).Perm (elems s ++ ops.flatMap Op.given) := by
  induction ops with
  | nil => intro s out s' hs he; cases he; exact ⟨hs, rfl, by simp⟩
  | cons op ops ih =>
    intro s out s' hs he
    simp only [Block.run] at he
    cases h1 : B.step s op with
    | panic => simp [h1] at he
    | ok r =>
      obtain ⟨o1, s1⟩ := r
      simp only [h1, Res.ok_bind] at he
      cases h2 : B.run s1 ops with
      | panic => simp [h2] at he
      | ok r =>
        obtain ⟨o2, s2⟩ := r
        simp only [h2, Res.ok_bind, Res.pure_eq, Res.ok.injEq] at he
        cases he
        obtain ⟨a1, a2, a3⟩ := h.step_ok hp s hs op (hops op (by simp)) o1 s1 h1
        obtain ⟨b1, b2, b3⟩ := ih (fun o ho => hops o (by simp [ho])) _ _ _ a1 h2
        refine ⟨b1, b2.trans a2, ?_⟩
        simp only [List.flatMap_cons]
        perms [a3, b3]

theorem exclusive_popOk [LinearOrder K] {F B : Block K V} {If Ib ef eb} (pF : PopOk F If ef)
    (pB : PopOk B Ib eb) :
    PopOk (exclusive F B) (fun s => If s.1 ∧ Ib s.2) (exclusiveElems ef eb) := by
  intro s n out s' h he
  cases h1 : B.pop s.2 n with
  | panic => simp [exclusive, h1] at he
  | ok r =>
    obtain ⟨o, b⟩ := r
    obtain ⟨b1, b2, b3⟩ := pB _ _ _ _ h.2 h1
    cases hd : Res.sub (B.size s.2) (B.size b) with
    | panic => simp [exclusive, h1, hd] at he
    | ok d =>
      simp only [exclusive, h1, hd, Res.ok_bind] at he
      split at he
      · cases h2 : F.pop s.1 (n - d) with
        | panic => simp [h2] at he
        | ok r =>
          obtain ⟨o', f⟩ := r
          obtain ⟨f1, f2, f3⟩ := pF _ _ _ _ h.1 h2
          simp only [h2, Res.ok_bind, Res.pure_eq, Res.ok.injEq] at he
          cases he
          refine ⟨⟨f1, b1⟩, by simp [exclusive, f2, b2], ?_⟩
          simp only [exclusiveElems]
          perms [f3, b3]
      · simp only [Res.pure_eq, Res.ok.injEq] at he
        cases he
        refine ⟨⟨h.1, b1⟩, by simp [exclusive, b2], ?_⟩
        simp only [exclusiveElems]
        perms [b3]

theorem batch_popOk {C : Block K V} {I ec} (pC : PopOk C I ec) :
    PopOk (batch C) (batchInv I) (batchElems ec) := by
  have key : ∀ (s : List C.State) (n : Nat) (out : List (K × V)) (s' : List C.State),
      (∀ c ∈ s, I c) → Batch.popLoop C s n = .ok (out, s') →
      (∀ c ∈ s', I c) ∧ s'.map C.capacity = s.map C.capacity ∧
        (batchElems ec s' ++ out).Perm (batchElems ec s) := by
    intro s
    induction s with
    | nil =>
      intro n out s' _ he
      simp only [Batch.popLoop, Res.ok.injEq, Prod.mk.injEq] at he
      obtain ⟨rfl, rfl⟩ := he
      exact ⟨by simp, rfl, by simp⟩
    | cons c cs ih =>
      intro n out s' hs he
      cases h1 : C.pop c n with
      | panic => simp [Batch.popLoop, h1] at he
      | ok r =>
        obtain ⟨o, c'⟩ := r
        obtain ⟨a1, a2, a3⟩ := pC _ _ _ _ (hs c (by simp)) h1
        cases hd : Res.sub (C.size c) (C.size c') with
        | panic => simp [Batch.popLoop, h1, hd] at he
        | ok d =>
          simp only [Batch.popLoop, h1, hd, Res.ok_bind] at he
          split at he
          · simp only [Res.pure_eq, Res.ok.injEq, Prod.mk.injEq] at he
            obtain ⟨rfl, rfl⟩ := he
            refine ⟨?_, by simp [a2], ?_⟩
            · intro x hx
              rcases List.mem_cons.1 hx with rfl | hx
              · exact a1
              · exact hs x (by simp [hx])
            · simp only [batchElems_cons]; perms [a3]
          · cases hp : Batch.popLoop C cs (n - d) with
            | panic => simp [hp] at he
            | ok r =>
              obtain ⟨os, cs'⟩ := r
              obtain ⟨b1, b2, b3⟩ := ih _ _ _ (fun x hx => hs x (by simp [hx])) hp
              simp only [hp, Res.ok_bind, Res.pure_eq, Res.ok.injEq, Prod.mk.injEq] at he
              obtain ⟨rfl, rfl⟩ := he
              refine ⟨?_, by simp [a2, b2], ?_⟩
              · intro x hx
                rcases List.mem_cons.1 hx with rfl | hx
                · exact a1
                · exact b1 x hx
              · simp only [batchElems_cons]; perms [a3, b3]
  intro (s : List C.State) n out (s' : List C.State) hs he
  cases hp : Batch.popLoop C s.reverse n with
  | panic => simp [batch, Batch.pop, hp] at he
  | ok r =>
    obtain ⟨o, r⟩ := r
    obtain ⟨a1, a2, a3⟩ := key _ _ _ _ (fun c hc => hs c (List.mem_reverse.1 hc)) hp
    simp only [batch, Batch.pop, hp, Res.ok_bind, Res.pure_eq, Res.ok.injEq, Prod.mk.injEq] at he
    obtain ⟨rfl, rfl⟩ := he
    refine ⟨fun c hc => a1 c (List.mem_reverse.1 hc), ?_, ?_⟩
    · change (r.reverse.map C.capacity).sum = (s.map C.capacity).sum
      rw [List.map_reverse, a2, List.map_reverse, List.reverse_reverse]
    · have e1 : (batchElems ec r.reverse).Perm (batchElems ec r) := (List.reverse_perm r).flatMap_right ec
      have e2 : (batchElems ec s.reverse).Perm (batchElems ec s) := (List.reverse_perm s).flatMap_right ec
      exact (e1.append_right _).trans (a3.trans e2)

theorem associative_popOk {hash : K → Nat} {C : Block K V} {I ec Pre} (hC : Core C I ec Pre)
    (pC : PopOk C I ec) : PopOk (associative hash C) (Associative.Inv hash I ec) (batchElems ec) := by
  have loop : ∀ (target : Nat) (bs : List (Nat × Nat)) (s : List C.State) out s',
      Associative.Inv hash I ec s → Associative.popLoop C target bs s = .ok (out, s') →
      Associative.Inv hash I ec s' ∧ s'.map C.capacity = s.map C.capacity ∧
        (batchElems ec s' ++ out).Perm (batchElems ec s) := by
    intro target bs
    induction bs with
    | nil =>
      intro s out s' h he
      simp only [Associative.popLoop, Res.ok.injEq, Prod.mk.injEq] at he
      obtain ⟨rfl, rfl⟩ := he
      exact ⟨h, rfl, by simp⟩
    | cons b bs ih =>
      intro s out s' h he
      obtain ⟨bsz, bi⟩ := b
      simp only [Associative.popLoop] at he
      cases hg : s[bi]? with
      | none => simp [hg, Res.unwrap] at he
      | some c =>
        simp only [hg, Res.unwrap_some, Res.ok_bind] at he
        cases hsub : Res.sub bsz target with
        | panic => simp [hsub] at he
        | ok d =>
          simp only [hsub, Res.ok_bind] at he
          have hI := (h.2 bi c hg).1
          cases h1 : C.pop c d with
          | panic => simp [h1] at he
          | ok r =>
            obtain ⟨o1, c'⟩ := r
            obtain ⟨h2, h3, h4⟩ := pC _ _ _ _ hI h1
            simp only [h1, Res.ok_bind] at he
            cases h6 : Associative.popLoop C target bs (s.set bi c') with
            | panic => simp [h6] at he
            | ok r =>
              obtain ⟨o2, s2⟩ := r
              simp only [h6, Res.ok_bind, Res.pure_eq, Res.ok.injEq, Prod.mk.injEq] at he
              obtain ⟨rfl, rfl⟩ := he
              have hr := Associative.routed_set h.2 hg h2 (fun e he => h4.subset (by simp [he]))
              have hinv : Associative.Inv hash I ec (s.set bi c') :=
                ⟨by simpa using h.1, by simpa using hr⟩
              obtain ⟨g1, g2, g3⟩ := ih _ _ _ hinv h6
              refine ⟨g1, g2.trans (Associative.map_set_same h3 hg), ?_⟩
              obtain ⟨a, b, e1, e2⟩ := Associative.batchElems_set (ec := ec) c' hg
              rw [e2] at g3
              rw [e1]
              perms [g3, h4]
  intro (s : List C.State) n out (s' : List C.State) h he
  simp only [associative, Associative.pop] at he
  split at he
  · cases he; exact ⟨h, rfl, by simp⟩
  · split at he
    · obtain ⟨o, s1, h1, h2, h3, h4⟩ := (associative_core (hash := hash)
        (hC.mono (Pre' := fun _ => False) fun _ h => h.elim) (fun _ _ h => h)).flush s h
      have : Batch.flush C s = .ok (o, s1) := h1
      rw [this] at he; cases he
      exact ⟨h2, h3, h4⟩
    · cases ht : Associative.targetLoop n ((List.range s.length).zip (s.map C.size)) (s.map C.size).sum with
      | panic => simp [ht] at he
      | ok r =>
        obtain ⟨t, bs⟩ := r
        simp only [ht, Res.ok_bind] at he
        obtain ⟨g1, g2, g3⟩ := loop t bs s out s' h he
        exact ⟨g1, by simp [associative, g2], g3⟩

theorem decorator_popOk (D : Decoration V) {C : Block K D.Item} {I : C.State → Prop}
    {ec : C.State → List (K × D.Item)} (h : PopOk C I ec) :
    PopOk (decorator D C) (fun s => I s.1) (decoratorElems D ec) := by
  intro s n out s' hs he
  cases hp : C.pop s.1 n with
  | panic => simp [decorator, hp] at he
  | ok r =>
    obtain ⟨o, c⟩ := r
    obtain ⟨a1, a2, a3⟩ := h _ _ _ _ hs hp
    simp only [decorator, hp, Res.ok_bind, Res.pure_eq, Res.ok.injEq] at he
    cases he
    exact ⟨a1, a2, by simpa [decoratorElems] using a3.map (strip D)⟩

theorem profiler_popOk {C : Block K V} {I ec} (h : PopOk C I ec) :
    PopOk (profiler C) (fun s => I s.1) (fun s => ec s.1) := by
  intro s n out s' hs he
  cases hp : C.pop s.1 n with
  | panic => simp [profiler, hp] at he
  | ok r =>
    obtain ⟨o, c⟩ := r
    obtain ⟨a1, a2, a3⟩ := h _ _ _ _ hs hp
    cases hd : Res.sub (C.size s.1) (C.size c) with
    | panic => simp [profiler, hp, hd] at he
    | ok d =>
      simp only [profiler, hp, hd, Res.ok_bind, Res.pure_eq, Res.ok.injEq] at he
      cases he
      exact ⟨a1, a2, a3⟩

theorem anyOf_popOk {ι : Type} {B : ι → Block K V}
    {I : ∀ i, (B i).State → Prop} {e : ∀ i, (B i).State → List (K × V)}
    (h : ∀ i, PopOk (B i) (I i) (e i)) :
    PopOk (anyOf B) (fun s => I s.1 s.2) (fun s => e s.1 s.2) := by
  intro s n out s' hs he
  cases hp : (B s.1).pop s.2 n with
  | panic => simp [anyOf, hp] at he
  | ok r =>
    obtain ⟨o, c⟩ := r
    obtain ⟨a1, a2, a3⟩ := h s.1 _ _ _ _ hs hp
    simp only [anyOf, hp, Res.ok_bind, Res.pure_eq, Res.ok.injEq] at he
    cases he
    exact ⟨a1, a2, a3⟩

theorem Stack.popOk [LinearOrder K] {V : Type} (p : Prop) (t : Stack K V) : t.WF →
    PopOk t.block (t.Inv p) t.elems := by
  induction t with
  | array sz srt srtS => intro _; exact (Array.lawful sz srt srtS).popOk
  | exclusive f b ihf ihb =>
    intro h; exact exclusive_popOk ((ihf h.1).withCapacity fun n => p → 0 < n) (ihb h.2)
  | batch c ih => intro h; exact batch_popOk (ih h)
  | associative hash c ih => intro h; exact associative_popOk (c.core p h) (ih h)
  | flushStopper c ih => exact ih
  | sequential c ih => exact ih
  | dyn ι c ih => intro h; exact anyOf_popOk fun i => ih i (h i)
  | decorator D A c ih => intro h; exact decorator_popOk D (ih h.2)
  | profiler c ih => intro h; exact profiler_popOk (ih h.2)

end Byoc
