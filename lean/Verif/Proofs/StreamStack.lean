import Verif.Model.StreamStack
import Verif.Proofs.Stack
import Verif.Proofs.ByteStreamOps
import Verif.Props.CompressedProps

/-! # Containers nested over serialised storage: proofs -/

namespace Byoc

variable {K V : Type}

/-- The block with a `take_multiple` made of takes and, unless `fl`, a `flush` that does nothing. -/
def patch (fl : Bool) (B : Block K V) : Block K V :=
  { B with
    takeMultiple := fun s ks => do
      let (out, s) ← defaultTakeMultiple B.take s ks
      return (out, ks, s)
    flush := match fl with
      | true => B.flush
      | false => fun s => .ok ([], s) }

theorem defaultTakeMultiple_of_take {C : Block K V} {I : C.State → Prop} {ec : C.State → List (K × V)}
    (hT : ∀ s k, I s → ∃ o s', C.take s k = .ok (o, s') ∧ I s' ∧ C.capacity s' = C.capacity s ∧
      match o with
      | none => ¬ HasKey (ec s) k ∧ (ec s').Perm (ec s)
      | some e => e.1 = k ∧ (e :: ec s').Perm (ec s)) :
    ∀ (ks : List K) (s : C.State), I s → ∃ out s', defaultTakeMultiple C.take s ks = .ok (out, s') ∧
      I s' ∧ C.capacity s' = C.capacity s ∧ (ec s' ++ out).Perm (ec s) ∧
      (out.map Prod.fst).Sublist ks ∧ (∀ k ∈ ks, HasKey (ec s) k → HasKey out k) := by
  intro ks
  induction ks with
  | nil => intro s h; exact ⟨[], s, rfl, h, rfl, by simp, by simp, by simp⟩
  | cons k ks ih =>
    intro s h
    obtain ⟨o, s1, h1, h2, h3, h4⟩ := hT s k h
    obtain ⟨out, s2, g1, g2, g3, g4, g5, g6⟩ := ih s1 h2
    refine ⟨o.toList ++ out, s2, by simp [defaultTakeMultiple, h1, g1], g2, g3.trans h3, ?_, ?_, ?_⟩
    · cases o with
      | none => simp only [Option.toList, List.nil_append]; exact g4.trans h4.2
      | some e => simp only [Option.toList]; perms [g4, h4.2]
    · cases o with
      | none => simpa using g5.cons k
      | some e => simp only [Option.toList, List.cons_append, List.nil_append, List.map_cons, h4.1]; exact g5.cons_cons k
    · intro k' hk' hs
      cases o with
      | none =>
        simp only [Option.toList, List.nil_append]
        have hs1 := (hasKey_perm h4.2).2 hs
        rcases List.mem_cons.1 hk' with rfl | hk'
        · exact absurd hs h4.1
        · exact g6 k' hk' hs1
      | some e =>
        simp only [Option.toList]
        rw [hasKey_append]
        by_cases he : k' = k
        · subst he
          left
          refine ⟨e.2, ?_⟩
          simp [← h4.1]
        · right
          have hk2 : k' ∈ ks := by
            rcases List.mem_cons.1 hk' with h | h
            · exact absurd h he
            · exact h
          apply g6 k' hk2
          obtain ⟨v, hv⟩ := (hasKey_perm h4.2).2 hs
          rcases List.mem_cons.1 hv with hv | hv
          · exact absurd (by rw [← h4.1, ← hv]) he
          · exact ⟨v, hv⟩

section
variable {B : Block K V} {I : B.State → Prop} {ec : B.State → List (K × V)} {fl : Bool}

/-- A container whose `contains`, `take`, `push` (and `flush`, with `fl`) follow the contract. -/
theorem patch_core
    (bounded : ∀ s, I s → B.size s ≤ B.capacity s) (empty_size : ∀ s, I s → ec s = [] → B.size s = 0)
    (contains : ∀ s k, I s → ∃ b s', B.contains s k = .ok (b, s') ∧ I s' ∧
      B.capacity s' = B.capacity s ∧ B.size s' = B.size s ∧ ec s' = ec s ∧
      (b = true ↔ HasKey (ec s) k))
    (take : ∀ s k, I s → ∃ o s', B.take s k = .ok (o, s') ∧ I s' ∧ B.capacity s' = B.capacity s ∧
      match o with
      | none => ¬ HasKey (ec s) k ∧ (ec s').Perm (ec s)
      | some e => e.1 = k ∧ (e :: ec s').Perm (ec s))
    (push : ∀ s l, I s → ∃ out s', B.push s l = .ok (out, s') ∧ I s' ∧
      B.capacity s' = B.capacity s ∧ (ec s' ++ out).Perm (ec s ++ l))
    (flush : fl = true → ∀ s, I s → ∃ out s', B.flush s = .ok (out, s') ∧ I s' ∧
      B.capacity s' = B.capacity s ∧ (ec s' ++ out).Perm (ec s)) :
    Core (patch fl B) I ec (fun _ => True) where
  bounded := bounded
  empty_size := empty_size
  contains := contains
  take := take
  takeMultiple s ks h := by
    obtain ⟨out, s', h1, h2, h3, h4, h5, h6⟩ := defaultTakeMultiple_of_take take ks s h
    refine ⟨out, ks, s', ?_, h2, h3, h4, ?_, h6, List.Subperm.refl _, ?_⟩
    · show (do let (out, s) ← defaultTakeMultiple B.take s ks; return (out, ks, s)) = _
      rw [h1]; rfl
    · intro e he
      exact h5.subset (List.mem_map.2 ⟨e, he, rfl⟩)
    · intro k hk _; exact hk
  push s l h _ := push s l h
  flush s h := by
    cases fl with
    | false => exact ⟨[], s, rfl, h, rfl, by simp⟩
    | true => exact flush rfl s h

theorem Core.patch (h : Core B I ec (fun _ => True)) : Core (Byoc.patch fl B) I ec (fun _ => True) :=
  patch_core h.bounded h.empty_size h.contains h.take (fun s l hs => h.push s l hs trivial)
    (fun _ => h.flush)

theorem Lawful.patch (h : Lawful B I ec (fun _ => True)) :
    Lawful (Byoc.patch fl B) I ec (fun _ => True) where
  toCore := h.toCore.patch
  pop := h.pop

theorem patch_fair (h : Core (Byoc.patch fl B) I ec (fun _ => True)) : Fair (Byoc.patch fl B) I := by
  have := viaDefault_fair h
  cases fl <;> exact this

end

/-! ## Leaves -/

section
variable [LinearOrder K]

theorem byteStreamBy_patch {R : Type} [LinearOrder R] (cd : Codec (K × V)) (rank : V → R)
    (hsmall : ByteStream.Small cd) :
    Lawful (patch false (byteStreamBy cd rank)) (ByteStream.Inv cd) (ByteStream.stored cd)
      (fun _ => True) where
  toCore := by
    refine patch_core (fun s h => h.bounded) (fun s h he => ?_) ?_ (fun s k h => ?_) (fun s l h => ?_)
      (fun h => nomatch h)
    · have := h.size
      rw [he] at this
      exact this
    · intro s k h
      obtain ⟨b, h1, h2⟩ := ByteStream.contains_spec s h k
      exact ⟨b, s, by simp only [byteStreamBy, h1]; rfl, h, rfl, rfl, rfl, h2⟩
    · exact ByteStream.take_spec s h k
    · obtain ⟨out, s', h1, h2, h3, h4, -⟩ := ByteStream.push_spec hsmall s h l
      exact ⟨out, s', h1, h2, h3, h4⟩
  pop s n h := by
    obtain ⟨out, s', h1, h2, h3, h4, h5, -⟩ := ByteStream.popBy_spec rank s h n
    exact ⟨out, s', h1, h2, h3, h4, h5⟩

theorem compressed_patch {fl : Bool} (z : Lz4) (cd : VecCodec (K × V)) (srt srtU : Sorter (K × V))
    (hlaw : cd.Law) :
    Lawful (patch fl (compressed z cd srt srtU)) (Compressed.Inv z cd) (Compressed.elems z cd)
      (fun _ => True) where
  toCore := by
    refine patch_core (fun s h => (h.holds hlaw).bounded) (fun s h he => ?_) ?_ (fun s k h => ?_)
      (fun s l h => ?_) (fun _ s h => ?_)
    · have := (h.holds hlaw).size
      rw [if_pos he] at this; exact this
    · intro s k h
      exact ⟨_, s, rfl, h, rfl, rfl, rfl, Compressed.contains_spec hlaw (h.holds hlaw) k⟩
    · obtain ⟨o, c', l', h1, h2, h3, h4⟩ := Compressed.take_spec hlaw (h.holds hlaw) k
      refine ⟨o, c', h1, ⟨l', h2⟩, h3, ?_⟩
      rw [h2.elems hlaw]
      cases o with
      | none => exact ⟨h4.1, by rw [h4.2]⟩
      | some e => exact h4
    · obtain ⟨out, c', l', h1, h2, h3, h4⟩ := Compressed.push_spec hlaw srtU (h.holds hlaw) l
      exact ⟨out, c', h1, ⟨l', h2⟩, h3, by rw [h2.elems hlaw]; exact h4⟩
    · obtain ⟨c', h1, h2, h3⟩ := Compressed.flush_spec hlaw (h.holds hlaw)
      exact ⟨_, c', h1, ⟨[], h2⟩, h3, by rw [h2.elems hlaw]; simp⟩
  pop s n h := by
    obtain ⟨out, c', l', h1, h2, h3, h4, h5, -⟩ := Compressed.pop_spec hlaw srt (h.holds hlaw) n
    exact ⟨out, c', h1, ⟨l', h2⟩, h3, by rw [h2.elems hlaw]; exact h4, by rw [h2.elems hlaw]; exact h5⟩

end

/-! ## Combinators of patched containers -/

section
variable {fl : Bool}

/-- `C` with other `take_multiple`, `pop` and `flush`. -/
def alter (C : Block K V) (tm : C.State → List K → Res (List (K × V) × List K × C.State))
    (p : C.State → Nat → Res (List (K × V) × C.State)) (f : C.State → Res (List (K × V) × C.State)) :
    Block K V :=
  { C with takeMultiple := tm, pop := p, flush := f }

section
variable (C : Block K V) (tm : C.State → List K → Res (List (K × V) × List K × C.State))
    (p : C.State → Nat → Res (List (K × V) × C.State)) (f : C.State → Res (List (K × V) × C.State))

theorem alter_contains (k : K) : ∀ s : List C.State,
    Batch.contains (alter C tm p f) s k = Batch.contains C s k := by
  intro s
  induction s with
  | nil => rfl
  | cons c s ih =>
    exact congrArg (fun r : Res (Bool × List C.State) => (do
      let (b, c) ← C.contains c k
      if b then return (true, c :: s)
      let (b, cs) ← r
      return (b, c :: cs) : Res (Bool × List C.State))) ih

theorem alter_take (k : K) : ∀ s : List C.State,
    Batch.take (alter C tm p f) s k = Batch.take C s k := by
  intro s
  induction s with
  | nil => rfl
  | cons c s ih =>
    exact congrArg (fun r : Res (Option (K × V) × List C.State) => (do
      let (o, c) ← C.take c k
      match o with
      | some e => return (some e, c :: s)
      | none => do
        let (o, cs) ← r
        return (o, c :: cs) : Res (Option (K × V) × List C.State))) ih

theorem alter_popLoop : ∀ (s : List C.State) (n : Nat),
    Batch.popLoop (alter C tm C.pop f) s n = Batch.popLoop C s n := by
  intro s
  induction s with
  | nil => intro n; rfl
  | cons c s ih =>
    intro n
    exact congrArg (fun r : Nat → Res (List (K × V) × List C.State) => (do
      let (out, c') ← C.pop c n
      let popped ← Res.sub (C.size c) (C.size c')
      if popped ≥ n then return (out, c' :: s)
      let (outs, cs) ← r (n - popped)
      return (out ++ outs, c' :: cs) : Res (List (K × V) × List C.State))) (funext ih)

theorem alter_pushLoop : ∀ (s : List C.State) (l : List (K × V)),
    Batch.pushLoop (alter C tm p f) s l = Batch.pushLoop C s l := by
  intro s
  induction s with
  | nil => intro l; cases l <;> rfl
  | cons c s ih =>
    intro l
    cases l with
    | nil => rfl
    | cons v vs =>
      exact congrArg (fun r : List (K × V) → Res (List (K × V) × List C.State × List C.State) => (do
        let (out, c) ← C.push c (v :: vs)
        let (out, rest, used) ← r out
        return (out, rest, c :: used) : Res (List (K × V) × List C.State × List C.State))) (funext ih)

theorem alter_flush : ∀ s : List C.State,
    Batch.flush (alter C tm p C.flush) s = Batch.flush C s := by
  intro s
  induction s with
  | nil => rfl
  | cons c s ih =>
    exact congrArg (fun r : Res (List (K × V) × List C.State) => (do
      let (out, c) ← C.flush c
      let (outs, cs) ← r
      return (out ++ outs, c :: cs) : Res (List (K × V) × List C.State))) ih

theorem alter_assocPushLoop : ∀ (s : List C.State) (g : List (List (K × V))),
    Associative.pushLoop (alter C tm p f) s g = Associative.pushLoop C s g := by
  intro s
  induction s with
  | nil => intro g; cases g <;> rfl
  | cons c s ih =>
    intro g
    cases g with
    | nil => rfl
    | cons g gs =>
      exact congrArg (fun r : Res (List (K × V) × List C.State) => (do
        let (out, c) ← C.push c g
        let (outs, cs) ← r
        return (out ++ outs, c :: cs) : Res (List (K × V) × List C.State))) (ih gs)

end

theorem Core.patch_batch {C : Block K V} {I : C.State → Prop} {ec : C.State → List (K × V)}
    (h : Core (Byoc.patch fl C) I ec (fun _ => True)) :
    Core (Byoc.patch fl (batch C)) (batchInv I) (batchElems ec) (fun _ => True) := by
  have hB := batch_core h
  refine patch_core (B := batch C) hB.bounded hB.empty_size ?_ ?_ ?_ ?_
  · intro s k hs
    obtain ⟨b, s', h1, h2⟩ := hB.contains s k hs
    exact ⟨b, s', (alter_contains C (Byoc.patch fl C).takeMultiple (Byoc.patch fl C).pop
        (Byoc.patch fl C).flush k s).symm.trans h1, h2⟩
  · intro s k hs
    obtain ⟨b, s', h1, h2⟩ := hB.take s k hs
    exact ⟨b, s', (alter_take C (Byoc.patch fl C).takeMultiple (Byoc.patch fl C).pop
        (Byoc.patch fl C).flush k s).symm.trans h1, h2⟩
  · intro s l hs
    obtain ⟨b, s', h1, h2⟩ := hB.push s l hs trivial
    exact ⟨b, s', (congrArg (fun r : Res (List (K × V) × List C.State × List C.State) => (do
      let (out, rest, used) ← r
      return (out, rest ++ used) : Res (List (K × V) × List C.State)))
        (alter_pushLoop C (Byoc.patch fl C).takeMultiple (Byoc.patch fl C).pop
        (Byoc.patch fl C).flush s l)).symm.trans h1, h2⟩
  · intro hf s hs
    subst hf
    obtain ⟨b, s', h1, h2⟩ := hB.flush s hs
    exact ⟨b, s', (alter_flush C (Byoc.patch true C).takeMultiple
        (Byoc.patch true C).pop s).symm.trans h1, h2⟩

theorem Lawful.patch_batch {C : Block K V} {I : C.State → Prop} {ec : C.State → List (K × V)}
    (h : Lawful (Byoc.patch fl C) I ec (fun _ => True)) :
    Lawful (Byoc.patch fl (batch C)) (batchInv I) (batchElems ec) (fun _ => True) where
  toCore := h.toCore.patch_batch
  pop s n hs := by
    obtain ⟨b, s', h1, h2⟩ := (batch_lawful h).pop s n hs
    exact ⟨b, s', (congrArg (fun r : Res (List (K × V) × List C.State) => (do
      let (out, r) ← r
      return (out, r.reverse) : Res (List (K × V) × List C.State)))
        (alter_popLoop C (Byoc.patch fl C).takeMultiple (Byoc.patch fl C).flush (List.reverse (α := C.State) s) n)).symm.trans h1, h2⟩

theorem Core.patch_associative {hash : K → Nat} {C : Block K V} {I : C.State → Prop}
    {ec : C.State → List (K × V)} (h : Core (Byoc.patch fl C) I ec (fun _ => True)) :
    Core (Byoc.patch fl (associative hash C)) (Associative.Inv hash I ec) (batchElems ec)
      (fun _ => True) := by
  have hB := associative_core (hash := hash) h (fun _ _ _ => trivial)
  refine patch_core (B := associative hash C) hB.bounded hB.empty_size hB.contains hB.take ?_ ?_
  · intro s l hs
    obtain ⟨b, s', h1, h2⟩ := hB.push s l hs trivial
    exact ⟨b, s', (congrArg (fun r : List (List (K × V)) → Res (List (K × V) × List C.State) => (do
      let g ← Associative.distribute hash Prod.fst (List.length (α := C.State) s) l
        (List.replicate (List.length (α := C.State) s) [])
      r g : Res (List (K × V) × List C.State)))
        (funext (alter_assocPushLoop C (Byoc.patch fl C).takeMultiple (Byoc.patch fl C).pop
        (Byoc.patch fl C).flush s))).symm.trans h1, h2⟩
  · intro hf s hs
    subst hf
    obtain ⟨b, s', h1, h2⟩ := hB.flush s hs
    exact ⟨b, s', (alter_flush C (Byoc.patch true C).takeMultiple
        (Byoc.patch true C).pop s).symm.trans h1, h2⟩

end

namespace StoreStack

variable [LinearOrder K]

/-- Every element in some leaf. -/
def elems : {V : Type} → (t : StoreStack K V) → t.block.State → List (K × V)
  | _, array _ _ _, s => Array.values s
  | _, stream _ cd _, s => ByteStream.stored cd s
  | _, compressed z cd _ _, s => Compressed.elems z cd s
  | _, exclusive f b, s => elems f s.1 ++ elems b s.2
  | _, batch c, s => List.flatMap (elems c) s
  | _, associative _ c, s => List.flatMap (elems c) s
  | _, flushStopper c, s => elems c s
  | _, sequential c, s => elems c s
  | _, dyn _ c, s => elems (c s.1) s.2
  | _, decorator D c, s => (elems c s.1).map (strip D)
  | _, profiler c, s => elems c s.1

/-- States reached. -/
def Inv : {V : Type} → (t : StoreStack K V) → t.block.State → Prop
  | _, array sz _ _, s => Array.Inv sz s
  | _, stream _ cd _, s => ByteStream.Inv cd s
  | _, compressed z cd _ _, s => Compressed.Inv z cd s
  | _, exclusive f b, s => Inv f s.1 ∧ Inv b s.2
  | _, batch c, s => batchInv (Inv c) s
  | _, associative hash c, s => Associative.Inv hash (Inv c) (elems c) s
  | _, flushStopper c, s => Inv c s
  | _, sequential c, s => Inv c s
  | _, dyn _ c, s => Inv (c s.1) s.2
  | _, decorator _ c, s => Inv c s.1
  | _, profiler c, s => Inv c s.1

theorem init_elems {V : Type} (t : StoreStack K V) : t.WF → ∀ s, t.Init s → t.elems s = [] := by
  induction t with
  | array sz srt srtS => rintro - s ⟨n, rfl⟩; rfl
  | stream ord cd rank => rintro - s ⟨n, rfl⟩; exact ByteStream.new_stored n
  | compressed z cd srt srtU => rintro hl s ⟨n, rfl⟩; exact (CompressedProps.new_holds n).elems hl
  | exclusive f b ihf ihb => intro w s h; simp [elems, ihf w.1 _ h.1, ihb w.2 _ h.2]
  | batch c ih =>
    intro w (s : List c.block.State) h
    exact List.flatMap_eq_nil_iff.2 fun x hx => ih w x (h x hx)
  | associative hash c ih =>
    intro w (s : List c.block.State) h
    exact List.flatMap_eq_nil_iff.2 fun x hx => ih w x (h.2 x hx)
  | flushStopper c ih => exact ih
  | sequential c ih => exact ih
  | dyn ι c ih => intro w s h; exact ih _ (w _) _ h
  | decorator D c ih => intro w s h; simp [elems, ih w.2 _ h]
  | profiler c ih => intro w s h; exact ih w _ h.1

theorem init_inv {V : Type} (t : StoreStack K V) : t.WF → ∀ s, t.Init s → t.Inv s := by
  induction t with
  | array sz srt srtS => rintro - s ⟨n, rfl⟩; exact Array.new_inv sz n
  | stream ord cd rank => rintro - s ⟨n, rfl⟩; exact ByteStream.new_inv n
  | compressed z cd srt srtU => rintro - s ⟨n, rfl⟩; exact ⟨[], CompressedProps.new_holds n⟩
  | exclusive f b ihf ihb => intro w s h; exact ⟨ihf w.1 _ h.1, ihb w.2 _ h.2⟩
  | batch c ih => intro w (s : List c.block.State) h x hx; exact ih w x (h x hx)
  | associative hash c ih =>
    intro w (s : List c.block.State) h
    refine ⟨Nat.pos_of_ne_zero h.1, ?_⟩
    intro i x hx
    have hm := List.mem_of_getElem? hx
    refine ⟨ih w x (h.2 x hm), ?_⟩
    rw [init_elems c w x (h.2 x hm)]
    simp
  | flushStopper c ih => exact ih
  | sequential c ih => exact ih
  | dyn ι c ih => intro w s h; exact ih _ (w _) _ h
  | decorator D c ih => intro w s h; exact ih w.2 _ h
  | profiler c ih => intro w s h; exact ih w _ h.1

theorem core {V : Type} (fl : Bool) (t : StoreStack K V) : t.WF → (fl = true → t.NoStream) →
    Core (patch fl t.block) t.Inv t.elems (fun _ => True) := by
  induction t with
  | array sz srt srtS => intro _ _; exact (Array.lawful sz srt srtS).toCore.patch
  | stream ord cd rank =>
    intro w n
    cases fl with
    | true => exact (n rfl).elim
    | false => exact (byteStreamBy_patch cd rank w).toCore
  | compressed z cd srt srtU => intro w _; exact (compressed_patch z cd srt srtU w).toCore
  | exclusive f b ihf ihb =>
    intro w n
    have := (exclusive_core (ihf w.1 fun h => (n h).1) (ihb w.2 fun h => (n h).2)).patch (fl := fl)
    cases fl <;> exact this
  | batch c ih => intro w n; exact (ih w n).patch_batch
  | associative hash c ih => intro w n; exact (ih w n).patch_associative
  | flushStopper c ih =>
    intro w n
    have := (flushStopper_core (ih w n)).patch (fl := fl)
    cases fl <;> exact this
  | sequential c ih => exact ih
  | dyn ι c ih =>
    intro w n
    have := (viaDefault_core (anyOf_core fun i => ih i (w i) fun h => n h i)).patch (fl := fl)
    cases fl <;> exact this
  | decorator D c ih =>
    intro w n
    have := ((decorator_core D w.1 (ih w.2 n)).mono (fun _ _ _ => trivial)).patch (fl := fl)
    cases fl <;> exact this
  | profiler c ih =>
    intro w n
    have := (profiler_core (ih w n) (patch_fair (ih w n))).patch (fl := fl)
    cases fl <;> exact this

theorem lawful {V : Type} (fl : Bool) (t : StoreStack K V) : t.WF → t.NoAssociative →
    (fl = true → t.NoStream) → Lawful (patch fl t.block) t.Inv t.elems (fun _ => True) := by
  induction t with
  | array sz srt srtS => intro _ _ _; exact (Array.lawful sz srt srtS).patch
  | stream ord cd rank =>
    intro w _ n
    cases fl with
    | true => exact (n rfl).elim
    | false => exact byteStreamBy_patch cd rank w
  | compressed z cd srt srtU => intro w _ _; exact compressed_patch z cd srt srtU w
  | exclusive f b ihf ihb =>
    intro w a n
    have := (exclusive_lawful (ihf w.1 a.1 fun h => (n h).1) (ihb w.2 a.2 fun h => (n h).2)).patch
      (fl := fl)
    cases fl <;> exact this
  | batch c ih => intro w a n; exact (ih w a n).patch_batch
  | associative hash c ih => intro w a n; exact a.elim
  | flushStopper c ih =>
    intro w a n
    have := (flushStopper_lawful (ih w a n)).patch (fl := fl)
    cases fl <;> exact this
  | sequential c ih => exact ih
  | dyn ι c ih =>
    intro w a n
    have := (viaDefault_lawful (anyOf_lawful fun i => ih i (w i) (a i) fun h => n h i)).patch (fl := fl)
    cases fl <;> exact this
  | decorator D c ih =>
    intro w a n
    have := ((decorator_lawful D w.1 (ih w.2 a n)).mono (fun _ _ _ => trivial)).patch (fl := fl)
    cases fl <;> exact this
  | profiler c ih =>
    intro w a n
    have := (profiler_lawful (ih w a n) (patch_fair (ih w a n).toCore)).patch (fl := fl)
    cases fl <;> exact this

end StoreStack
end Byoc
