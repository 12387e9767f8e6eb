import Verif.Model.MapStack
import Verif.Proofs.Fresh
import Verif.Proofs.BTree
import Verif.Props.CompressedProps
import Verif.Props.InclusiveProps

/-! # Every stack of all building blocks satisfies the contract for fresh keys -/

namespace Byoc

variable {K V : Type}

/-- With distinct keys `take_multiple` returns at most one element per requested key. -/
theorem MapCore.fair {B : Block K V} {I e} (h : MapCore B I e) : Fair B I := by
  intro s ks out ks' s' hs he
  obtain ⟨o, k, t, h1, -, -, h4, h5, -⟩ := h.takeMultiple s ks hs
  rw [he] at h1
  cases h1
  have hd : DistinctKeys out := (h.distinct s hs).part (l' := out) (r := e s') (by perms [h4])
  refine List.subperm_of_subset hd ?_
  intro x hx
  obtain ⟨y, hy, rfl⟩ := List.mem_map.1 hx
  exact h5 y hy

/-- `push(vec![])` hands nothing back. -/
def QuietPush (B : Block K V) (I : B.State → Prop) : Prop :=
  ∀ s, I s → ∃ s', B.push s [] = .ok ([], s')

theorem QuietPush.mono {B : Block K V} {I J : B.State → Prop} (h : QuietPush B I)
    (hj : ∀ s, J s → I s) : QuietPush B J := fun s hs => h s (hj s hs)

theorem Flushes.mono {B : Block K V} {I J : B.State → Prop} {e} (h : Flushes B I e)
    (hj : ∀ s, J s → I s) : Flushes B J e := fun s hs => h s (hj s hs)

theorem MapCore.push_nil {B : Block K V} {I e} (h : MapCore B I e) (hq : QuietPush B I) {s : B.State}
    (hs : I s) : ∃ s', B.push s [] = .ok ([], s') ∧ I s' ∧ B.capacity s' = B.capacity s ∧
      (e s').Perm (e s) := by
  obtain ⟨s', h1⟩ := hq s hs
  obtain ⟨o, t, g1, g2, g3, g4⟩ := h.pushFresh s [] hs (by simpa using h.distinct s hs)
  rw [h1] at g1
  cases g1
  exact ⟨s', h1, g2, g3, by simpa using g4⟩

theorem MapCore.takeMultiple_nil {B : Block K V} {I e} (h : MapCore B I e) {s : B.State} (hs : I s) :
    ∃ ks s', B.takeMultiple s [] = .ok ([], ks, s') ∧ I s' ∧ B.capacity s' = B.capacity s ∧
      (e s').Perm (e s) := by
  obtain ⟨o, ks, s', h1, h2, h3, h4, h5, -⟩ := h.takeMultiple s [] hs
  have ho : o = [] := by
    cases o with
    | nil => rfl
    | cons x _ => exact absurd (h5 x (by simp)) (by simp)
  subst ho
  exact ⟨ks, s', h1, h2, h3, by simpa using h4⟩

/-! ## Inclusive, without accesses -/

section
open Inclusive InclusiveProps

variable {F B : Block K (InclCell V)} {If : F.State → Prop} {Ib : B.State → Prop}
  {ef : F.State → List (K × InclCell V)} {eb : B.State → List (K × InclCell V)}

/-- Nothing in front, no element of the back flagged as copied. -/
def inclusivePlainInv (If : F.State → Prop) (Ib : B.State → Prop)
    (ef : F.State → List (K × InclCell V)) (eb : B.State → List (K × InclCell V))
    (s : F.State × B.State) : Prop :=
  If s.1 ∧ Ib s.2 ∧ ef s.1 = [] ∧ ∀ e ∈ eb s.2, e.2.cloned = false

theorem plain_keys (l : List (K × InclCell V)) : (plain l).map Prod.fst = l.map Prod.fst := by
  simp [plain, unwrap, Function.comp_def]

theorem wrap_keys (l : List (K × V)) : (l.map wrap).map Prod.fst = l.map Prod.fst := by
  simp [wrap, Function.comp_def]

theorem plain_wrap (l : List (K × V)) : plain (l.map wrap) = l := by
  simp only [plain, List.map_map]
  conv => rhs; rw [← List.map_id l]
  apply List.map_congr_left
  intro e _; rfl

theorem inclusive_map (hF : MapCore F If ef) (hB : MapCore B Ib eb) (qB : QuietPush B Ib) :
    MapCore (inclusive F B) (inclusivePlainInv If Ib ef eb) (fun s => plain (eb s.2)) where
  bounded s hs := hB.bounded s.2 hs.2.1
  empty_size s hs he := hB.empty_size s.2 hs.2.1 (by simpa [plain] using he)
  contains s k hs := by
    obtain ⟨i1, i2, i3, i4⟩ := hs
    obtain ⟨b, f1, h1, h2, h3, h3', h4, h5⟩ := hF.contains s.1 k i1
    have hb : ¬ b = true := by
      intro hb
      have := h5.1 hb
      rw [i3] at this
      simp [HasKey] at this
    obtain ⟨b', b1, g1, g2, g3, g3', g4, g5⟩ := hB.contains s.2 k i2
    refine ⟨b', (f1, b1), ?_, ⟨h2, g2, h4.trans i3, by rw [g4]; exact i4⟩, g3, g3', by simp only [g4], ?_⟩
    · simp only [inclusive, h1, Res.ok_bind, hb, g1]; rfl
    · rw [g5]; exact hasKey_plain.symm
  take s k hs := by
    obtain ⟨i1, i2, i3, i4⟩ := hs
    obtain ⟨o, b1, h1, h2, h3, h4⟩ := hB.take s.2 k i2
    cases o with
    | none =>
      refine ⟨none, (s.1, b1), by simp only [inclusive, h1, Res.ok_bind]; rfl,
        ⟨i1, h2, i3, fun e he => i4 e (h4.2.subset he)⟩, h3, ?_, h4.2.map _⟩
      have := h4.1
      rw [← hasKey_plain] at this
      exact this
    | some e =>
      obtain ⟨hk, hp⟩ := h4
      have hc : e.2.cloned = false := i4 e (hp.subset (by simp))
      refine ⟨some (unwrap e), (s.1, b1), ?_,
        ⟨i1, h2, i3, fun e he => i4 e (hp.subset (by simp [he]))⟩, h3, hk, ?_⟩
      · simp only [inclusive, h1, Res.ok_bind, hc]; rfl
      · exact hp.map unwrap
  takeMultiple s ks hs := by
    obtain ⟨i1, i2, i3, i4⟩ := hs
    obtain ⟨out, ks', b1, h1, h2, h3, h4, h5, h6, h7, h8⟩ := hB.takeMultiple s.2 ks i2
    have ho : ∀ e ∈ out, e.2.cloned = false := fun e he => i4 e (h4.subset (by simp [he]))
    obtain ⟨fk, f1, g1, g2, g3, g4⟩ := hF.takeMultiple_nil i1
    rw [i3] at g4
    refine ⟨plain out, ks', (f1, b1), ?_,
      ⟨g2, h2, List.perm_nil.1 g4, fun e he => i4 e (h4.subset (by simp [he]))⟩, h3, ?_, ?_, ?_, h7, ?_⟩
    · simp only [inclusive, h1, Res.ok_bind, clonedKeys_nil_of ho, g1, filter_of ho, List.append_nil]
      rfl
    · have := h4.map unwrap
      rw [List.map_append] at this
      exact this
    · intro e he
      obtain ⟨x, hx, rfl⟩ := List.mem_map.1 he
      exact h5 x hx
    · intro k hk hh
      rw [hasKey_plain]
      exact h6 k hk (hasKey_plain.1 hh)
    · intro k hk hh
      exact h8 k hk (fun h => hh (hasKey_plain.2 h))
  push s l _ h := h.elim
  flush s hs := by
    obtain ⟨i1, i2, i3, i4⟩ := hs
    obtain ⟨fo, f1, h1, h2, h3, h4⟩ := hF.flush s.1 i1
    rw [i3] at h4
    have h4' := List.perm_nil.1 h4
    simp only [List.append_eq_nil_iff] at h4'
    obtain ⟨ks', b1, g1, g2, g3, g4⟩ := hB.takeMultiple_nil i2
    obtain ⟨b2, u1, u2, u3, u4⟩ := hB.push_nil qB g2
    obtain ⟨out, b3, w1, w2, w3, w4⟩ := hB.flush b2 u2
    have hp := w4.trans (u4.trans g4)
    refine ⟨plain out, (f1, b3), ?_, ⟨h2, w2, h4'.1, fun e he => i4 e (hp.subset (by simp [he]))⟩,
      w3.trans (u3.trans g3), ?_⟩
    · simp only [inclusive, h1, Res.ok_bind, h4'.2, List.filterMap_nil, List.map_nil, g1, u1,
        List.length_nil, if_true, w1]
      rfl
    · have := hp.map unwrap
      rw [List.map_append] at this
      exact this
  distinct s hs := by
    have := hB.distinct s.2 hs.2.1
    unfold DistinctKeys at this ⊢
    rw [plain_keys]; exact this
  pushFresh s l hs hl := by
    obtain ⟨i1, i2, i3, i4⟩ := hs
    have hd : DistinctKeys (eb s.2 ++ l.map wrap) := by
      unfold DistinctKeys at hl ⊢
      rw [List.map_append, wrap_keys]
      rw [List.map_append, plain_keys] at hl
      exact hl
    obtain ⟨out, b1, h1, h2, h3, h4⟩ := hB.pushFresh s.2 (l.map wrap) i2 hd
    have hall : ∀ e ∈ eb s.2 ++ l.map wrap, e.2.cloned = false := by
      intro e he
      rcases List.mem_append.1 he with he | he
      · exact i4 e he
      · obtain ⟨x, -, rfl⟩ := List.mem_map.1 he
        rfl
    have ho : ∀ e ∈ out, e.2.cloned = false := fun e he => hall e (h4.subset (by simp [he]))
    obtain ⟨fk, f1, g1, g2, g3, g4⟩ := hF.takeMultiple_nil i1
    rw [i3] at g4
    refine ⟨plain out, (f1, b1), ?_,
      ⟨g2, h2, List.perm_nil.1 g4, fun e he => hall e (h4.subset (by simp [he]))⟩, h3, ?_⟩
    · simp only [inclusive, h1, Res.ok_bind, clonedKeys_nil_of ho, g1, filter_of ho,
        List.map_nil, List.append_nil]
      rfl
    · have := h4.map unwrap
      rw [List.map_append, List.map_append] at this
      have e := plain_wrap l
      unfold plain at e
      rw [e] at this
      exact this

theorem inclusive_popLaw (hB : PopLaw B Ib eb) :
    PopLaw (inclusive F B) (inclusivePlainInv If Ib ef eb) (fun s => plain (eb s.2)) := by
  intro s n hs
  obtain ⟨i1, i2, i3, i4⟩ := hs
  obtain ⟨out, b1, h1, h2, h3, h4, h5⟩ := hB s.2 n i2
  have ho : ∀ e ∈ out, e.2.cloned = false := fun e he => i4 e (h4.subset (by simp [he]))
  refine ⟨plain out, (s.1, b1), ?_, ⟨i1, h2, i3, fun e he => i4 e (h4.subset (by simp [he]))⟩, h3, ?_, ?_⟩
  · simp only [inclusive, h1, Res.ok_bind, popLoop_plain F s.1 out ho]; rfl
  · have := h4.map unwrap
    rw [List.map_append] at this
    exact this
  · rcases h5 with h5 | h5
    · exact Or.inl h5
    · right; simp [h5, plain]

theorem inclusive_flushes_plain (hF : MapCore F If ef) (hB : MapCore B Ib eb) (qB : QuietPush B Ib)
    (fB : Flushes B Ib eb) :
    Flushes (inclusive F B) (inclusivePlainInv If Ib ef eb) (fun s => plain (eb s.2)) := by
  intro s hs
  obtain ⟨i1, i2, i3, i4⟩ := hs
  obtain ⟨fo, f1, h1, h2, h3, h4⟩ := hF.flush s.1 i1
  rw [i3] at h4
  have h4' := List.perm_nil.1 h4
  simp only [List.append_eq_nil_iff] at h4'
  obtain ⟨ks', b1, g1, g2, g3, g4⟩ := hB.takeMultiple_nil i2
  obtain ⟨b2, u1, u2, u3, u4⟩ := hB.push_nil qB g2
  obtain ⟨out, b3, w1, w2, w3⟩ := fB b2 u2
  refine ⟨plain out, (f1, b3), ?_, by simp [w2, plain], ((w3.trans (u4.trans g4)).map _)⟩
  simp only [inclusive, h1, Res.ok_bind, h4'.2, List.filterMap_nil, List.map_nil, g1, u1,
    List.length_nil, if_true, w1]
  rfl

theorem inclusive_quiet (hF : MapCore F If ef) (hB : QuietPush B Ib) :
    QuietPush (inclusive F B) (inclusivePlainInv If Ib ef eb) := by
  intro s hs
  obtain ⟨b, h1⟩ := hB s.2 hs.2.1
  obtain ⟨fk, f1, g1, -⟩ := hF.takeMultiple_nil hs.1
  refine ⟨(f1, b), ?_⟩
  simp only [inclusive, List.map_nil, h1, Res.ok_bind]
  have : clonedKeys ([] : List (K × InclCell V)) = [] := rfl
  rw [this, g1]
  rfl

end

/-! ## Empty batches -/

theorem Array.quiet [LinearOrder K] (sz : K × V → Nat) (srt srtS : Sorter (K × V)) :
    QuietPush (arrayBlock sz srt srtS) (Array.Inv sz) := by
  intro (s : Array K V) hs
  have hb : s.totalSize ≤ s.capacity := (Array.lawful sz srt srtS).bounded s hs
  refine ⟨({ s with totalSize := s.totalSize + 0, values := s.values ++ [] } : Array K V), ?_⟩
  simp only [arrayBlock, Array.push, Res.sub_ok hb, Res.ok_bind, total_nil, Nat.zero_le, if_true]
  rfl

theorem BTree.quiet [LinearOrder K] [LinearOrder V] (sz : K × V → Nat) (hz : ∀ e, 0 < sz e) :
    QuietPush (btreeBlock sz) (BTree.Inv sz (K := K) (V := V)) := by
  intro s hs
  by_cases hc : s.capacity = 0
  · obtain ⟨o, s', h1, -, -, h4⟩ := (BTree.lawful sz).push s [] hs (by simp)
    have h0 : s.map = [] := by
      have hb : s.totalSize ≤ s.capacity := (BTree.lawful sz).bounded s hs
      have h5 := hs.1.size
      cases hm : s.map with
      | nil => rfl
      | cons e l =>
        rw [hm] at h5
        have := hz e
        simp [total_cons] at h5
        omega
    rw [h0] at h4
    have := List.perm_nil.1 h4
    simp only [List.append_eq_nil_iff] at this
    exact ⟨s', by rw [h1, this.2]⟩
  · have hb : s.totalSize ≤ s.capacity := (BTree.lawful sz).bounded s hs
    exact BTree.push_fits sz s [] hs (by rw [total_nil]; omega) (by rw [total_nil]; omega) (by simp)

theorem exclusive_quiet [LinearOrder K] {F B : Block K V} {If : F.State → Prop} {Ib : B.State → Prop}
    (hF : QuietPush F If) (hB : QuietPush B Ib) :
    QuietPush (exclusive F B) (fun s => If s.1 ∧ Ib s.2) := by
  intro s hs
  obtain ⟨f, h1⟩ := hF s.1 hs.1
  obtain ⟨b, h2⟩ := hB s.2 hs.2
  exact ⟨(f, b), by simp [exclusive, h1, h2]⟩

theorem batch_quiet {C : Block K V} (I : List C.State → Prop) : QuietPush (batch C) I := by
  intro (s : List C.State) _
  exact ⟨s, by cases s <;> simp [batch, Batch.push, Batch.pushLoop]⟩

theorem associative_quiet {hash : K → Nat} {C : Block K V} {I : C.State → Prop} (hC : QuietPush C I) :
    QuietPush (associative hash C) (fun s : List C.State => ∀ c ∈ s, I c) := by
  have loop : ∀ s : List C.State, (∀ c ∈ s, I c) → ∃ s',
      Associative.pushLoop C s (List.replicate s.length []) = .ok ([], s') := by
    intro s
    induction s with
    | nil => intro _; exact ⟨[], rfl⟩
    | cons c cs ih =>
      intro h
      obtain ⟨c', h1⟩ := hC c (h c (by simp))
      obtain ⟨cs', h2⟩ := ih fun d hd => h d (by simp [hd])
      exact ⟨c' :: cs', by
        simp [List.replicate_succ, Associative.pushLoop, h1, h2]⟩
  intro (s : List C.State) hs
  obtain ⟨s', h⟩ := loop s hs
  exact ⟨s', by simpa [associative, Associative.push, Associative.distribute] using h⟩

theorem viaDefault_quiet [LinearOrder K] {C : Block K V} {I} (h : QuietPush C I) :
    QuietPush (viaDefault C) I := h

theorem anyOf_quiet {ι : Type} {B : ι → Block K V} {I : ∀ i, (B i).State → Prop}
    (h : ∀ i, QuietPush (B i) (I i)) : QuietPush (anyOf B) (fun s => I s.1 s.2) := by
  intro s hs
  obtain ⟨c, h1⟩ := h s.1 s.2 hs
  exact ⟨⟨s.1, c⟩, by simp [anyOf, h1]⟩

theorem profiler_quiet {C : Block K V} {I} (h : QuietPush C I) :
    QuietPush (profiler C) (fun s => I s.1) := by
  intro s hs
  obtain ⟨c, h1⟩ := h s.1 hs
  exact ⟨(c, _), by simp only [profiler, h1, Res.ok_bind]; rfl⟩

theorem decorator_quiet (D : Decoration V) {C : Block K D.Item} {I} (h : QuietPush C I) :
    QuietPush (decorator D C) (fun s => I s.1) := by
  intro s hs
  obtain ⟨c, h1⟩ := h s.1 hs
  exact ⟨_, by simp only [decorator, wrapAll, h1, Res.ok_bind]; rfl⟩

theorem exclusive_map_flushes [LinearOrder K] {F B : Block K V} {If Ib ef eb} (hF : MapCore F If ef)
    (hB : MapCore B Ib eb) (fF : Flushes F If ef) (fB : Flushes B Ib eb) :
    Flushes (exclusive F B)
      (fun s => (If s.1 ∧ Ib s.2) ∧ DistinctKeys (exclusiveElems ef eb s)) (exclusiveElems ef eb) := by
  intro s hs
  have := exclusive_flushes (guard_core hF) (guard_core hB) (F := guard F ef) (B := guard B eb) fF fB s hs.1
  obtain ⟨o, t, h1, h2, h3⟩ := this
  exact ⟨o, t, (exclusive_fresh_flush hF hB s hs.1 hs.2).trans h1, h2, h3⟩

/-! ## A container behind a socket -/

theorem remote_map {C : Block K V} {I ec} (hC : MapCore C I ec) : MapCore (Socket.remote C) I ec where
  bounded := hC.bounded
  empty_size := hC.empty_size
  contains := hC.contains
  take := hC.take
  takeMultiple s ks hs := by
    obtain ⟨out, ks', s', h1, h2, h3, h4, h5, h6, -, -⟩ := hC.takeMultiple s ks hs
    exact ⟨out, ks, s', by simp [Socket.remote, h1], h2, h3, h4, h5, h6, List.Subperm.refl ks,
      fun k hk _ => hk⟩
  push := hC.push
  flush := hC.flush
  distinct := hC.distinct
  pushFresh := hC.pushFresh

/-! ## All shapes -/

namespace MapStack

variable [LinearOrder K]

/-- The elements a user finds in the container. -/
def elems : {V : Type} → (t : MapStack K V) → t.block.State → List (K × V)
  | _, array _ _ _, s => Array.values s
  | _, btree _ _, s => BTree.map s
  | _, compressed z cd _ _, s => Compressed.elems z cd s
  | _, inclusive _ b, s => InclusiveProps.plain (elems b s.2)
  | _, exclusive f b, s => exclusiveElems (elems f) (elems b) s
  | _, batch c, s => batchElems (elems c) s
  | _, associative _ c, s => batchElems (elems c) s
  | _, flushStopper c, s => elems c s
  | _, sequential c, s => elems c s
  | _, dyn _ c, s => elems (c s.1) s.2
  | _, decorator D _ c, s => decoratorElems D (elems c) s
  | _, profiler c, s => elems c s.1
  | _, remote c, s => elems c s

/-- The invariant. -/
def Inv : {V : Type} → (t : MapStack K V) → t.block.State → Prop
  | _, array sz _ _, s => Array.Inv sz s ∧ DistinctKeys (Array.values s)
  | _, btree ord sz, s => @BTree.Inv _ _ _ ord sz s ∧ DistinctKeys (BTree.map s)
  | _, compressed z cd _ _, s => Compressed.Inv z cd s ∧ DistinctKeys (Compressed.elems z cd s)
  | _, inclusive f b, s => inclusivePlainInv (Inv f) (Inv b) (elems f) (elems b) s
  | _, exclusive f b, s => (Inv f s.1 ∧ Inv b s.2) ∧ DistinctKeys (exclusiveElems (elems f) (elems b) s)
  | _, batch c, s => batchInv (Inv c) s ∧ DistinctKeys (batchElems (elems c) s)
  | _, associative hash c, s =>
    Associative.Inv hash (Inv c) (elems c) s ∧ DistinctKeys (batchElems (elems c) s)
  | _, flushStopper c, s => Inv c s
  | _, sequential c, s => Inv c s
  | _, dyn _ c, s => Inv (c s.1) s.2
  | _, decorator _ _ c, s => Inv c s.1
  | _, profiler c, s => Inv c s.1
  | _, remote c, s => Inv c s

theorem init_elems {V : Type} (t : MapStack K V) : t.WF → ∀ s, t.Init s → t.elems s = [] := by
  induction t with
  | array sz srt srtS => rintro - s ⟨n, rfl⟩; rfl
  | btree ord sz => rintro - s ⟨n, rfl⟩; rfl
  | compressed z cd srt srtU =>
    rintro (h : cd.Law) s ⟨n, rfl⟩
    exact (CompressedProps.new_holds n).elems h
  | inclusive f b ihf ihb => intro h s hs; simp [elems, InclusiveProps.plain, ihb h.2.1 _ hs.2]
  | exclusive f b ihf ihb =>
    intro h s hs; simp [elems, exclusiveElems, ihf h.1 _ hs.1, ihb h.2 _ hs.2]
  | batch c ih =>
    intro h (s : List c.block.State) hs
    exact List.flatMap_eq_nil_iff.2 fun x hx => ih h x (hs x hx)
  | associative hash c ih =>
    intro h (s : List c.block.State) hs
    exact List.flatMap_eq_nil_iff.2 fun x hx => ih h x (hs.2 x hx)
  | flushStopper c ih => exact ih
  | sequential c ih => exact ih
  | dyn ι c ih => intro h s hs; exact ih _ (h _) _ hs
  | decorator D A c ih => intro h s hs; simp [elems, decoratorElems, ih h.2 _ hs]
  | profiler c ih => intro h s hs; exact ih h _ hs.1
  | remote c ih => exact ih

theorem init_inv {V : Type} (t : MapStack K V) : t.WF → ∀ s, t.Init s → t.Inv s := by
  induction t with
  | array sz srt srtS => rintro - s ⟨n, rfl⟩; exact ⟨Array.new_inv sz n, List.nodup_nil⟩
  | btree ord sz =>
    rintro - s ⟨n, rfl⟩; exact ⟨@BTree.new_inv _ _ _ ord sz n, List.nodup_nil⟩
  | @compressed V z cd srt srtU =>
    rintro (h : cd.Law) s ⟨n, rfl⟩
    have := CompressedProps.new_holds (z := z) (cd := cd) n
    refine ⟨⟨[], this⟩, ?_⟩
    rw [this.elems h]
    exact List.nodup_nil
  | inclusive f b ihf ihb =>
    intro h s hs
    refine ⟨ihf h.1 _ hs.1, ihb h.2.1 _ hs.2, init_elems f h.1 _ hs.1, ?_⟩
    rw [init_elems b h.2.1 _ hs.2]
    simp
  | exclusive f b ihf ihb =>
    intro h s hs
    refine ⟨⟨ihf h.1 _ hs.1, ihb h.2 _ hs.2⟩, ?_⟩
    have := init_elems (exclusive f b) h s hs
    simp only [elems] at this
    rw [this]; exact List.nodup_nil
  | batch c ih =>
    intro h (s : List c.block.State) hs
    refine ⟨fun x hx => ih h x (hs x hx), ?_⟩
    have : batchElems c.elems s = [] := init_elems (batch c) h s hs
    rw [this]; exact List.nodup_nil
  | associative hash c ih =>
    intro h (s : List c.block.State) hs
    refine ⟨⟨Nat.pos_of_ne_zero hs.1, ?_⟩, ?_⟩
    · intro i x hx
      have hm := List.mem_of_getElem? hx
      refine ⟨ih h x (hs.2 x hm), ?_⟩
      rw [init_elems c h x (hs.2 x hm)]
      simp
    · have : batchElems c.elems s = [] := init_elems (associative hash c) h s hs
      rw [this]; exact List.nodup_nil
  | flushStopper c ih => exact ih
  | sequential c ih => exact ih
  | dyn ι c ih => intro h s hs; exact ih _ (h _) _ hs
  | decorator D A c ih => intro h s hs; exact ih h.2 _ hs
  | profiler c ih => intro h s hs; exact ih h _ hs.1
  | remote c ih => exact ih

/-- The contract without `pop`. -/
theorem map {V : Type} (t : MapStack K V) : t.WF →
    MapCore t.block t.Inv t.elems ∧ (t.Quiet → QuietPush t.block t.Inv) := by
  induction t with
  | array sz srt srtS =>
    exact fun _ => ⟨(Array.lawful sz srt srtS).toCore.map fun _ _ => trivial,
      fun _ => (Array.quiet sz srt srtS).mono fun _ hs => hs.1⟩
  | @btree V ord sz =>
    exact fun _ => ⟨(@BTree.lawful _ _ _ ord sz).toCore.map fun _ h => h,
      fun h => (@BTree.quiet _ _ _ ord sz h).mono fun _ hs => hs.1⟩
  | compressed z cd srt srtU =>
    intro (h : cd.Law)
    have m := CompressedProps.mapLawful (z := z) (srt := srt) (srtU := srtU) h
    exact ⟨⟨m.toCore, m.distinct, m.pushFresh⟩, fun h => h.elim⟩
  | inclusive f b ihf ihb =>
    intro h
    obtain ⟨cf, qf⟩ := ihf h.1
    obtain ⟨cb, qb⟩ := ihb h.2.1
    exact ⟨inclusive_map cf cb (qb h.2.2), fun h => inclusive_quiet cf (qb h)⟩
  | exclusive f b ihf ihb =>
    intro h
    obtain ⟨cf, qf⟩ := ihf h.1
    obtain ⟨cb, qb⟩ := ihb h.2
    exact ⟨exclusive_map cf cb, fun h => (exclusive_quiet (qf h.1) (qb h.2)).mono fun _ hs => hs.1⟩
  | batch c ih => exact fun h => ⟨batch_map (ih h).1, fun _ => batch_quiet _⟩
  | associative hash c ih =>
    intro h
    exact ⟨associative_map (ih h).1,
      fun q => (associative_quiet ((ih h).2 q)).mono fun _ hs => hs.1.2.inv⟩
  | flushStopper c ih => exact fun h => ⟨flushStopper_map (ih h).1, (ih h).2⟩
  | sequential c ih => exact ih
  | dyn ι c ih =>
    intro h
    exact ⟨viaDefault_map (anyOf_map fun i => (ih i (h i)).1),
      fun q => viaDefault_quiet (anyOf_quiet fun i => (ih i (h i)).2 (q i))⟩
  | decorator D A c ih =>
    exact fun h => ⟨decorator_map D h.1 (ih h.2).1, fun q => decorator_quiet D ((ih h.2).2 q)⟩
  | profiler c ih =>
    exact fun h => ⟨profiler_map (ih h).1 (ih h).1.fair, fun q => profiler_quiet ((ih h).2 q)⟩
  | remote c ih => exact fun h => ⟨remote_map (ih h).1, (ih h).2⟩

/-- `pop`. -/
theorem popLaw {V : Type} (t : MapStack K V) : t.WF → t.NoAssociative →
    PopLaw t.block t.Inv t.elems := by
  induction t with
  | array sz srt srtS => exact fun _ _ => PopLaw.distinct (Array.lawful sz srt srtS).pop
  | @btree V ord sz => exact fun _ _ => PopLaw.distinct (@BTree.lawful _ _ _ ord sz).pop
  | compressed z cd srt srtU =>
    intro (h : cd.Law) _
    exact (CompressedProps.mapLawful (z := z) (srt := srt) (srtU := srtU) h).pop
  | inclusive f b ihf ihb => exact fun h n => inclusive_popLaw (ihb h.2.1 n)
  | exclusive f b ihf ihb =>
    exact fun h n => exclusive_popLaw (f.map h.1).1 (b.map h.2).1 (ihf h.1 n.1) (ihb h.2 n.2)
  | batch c ih => exact fun h n => batch_popLaw (c.map h).1 (ih h n)
  | associative hash c ih => exact fun _ n => n.elim
  | flushStopper c ih => exact fun h n => ih h n
  | sequential c ih => exact ih
  | dyn ι c ih => exact fun h n => anyOf_popLaw fun i => ih i (h i) (n i)
  | decorator D A c ih => exact fun h n => decorator_popLaw D h.1 (c.map h.2).1 (ih h.2 n)
  | profiler c ih => exact fun h n => profiler_popLaw (c.map h).1 (c.map h).1.fair (ih h n)
  | remote c ih => exact ih

/-- `flush`. -/
theorem flushes {V : Type} (t : MapStack K V) : t.WF → t.NoFlushStopper →
    Flushes t.block t.Inv t.elems := by
  induction t with
  | array sz srt srtS => exact fun _ _ => (Array.flushes sz srt srtS).mono fun _ hs => hs.1
  | @btree V ord sz => exact fun _ _ => (@BTree.flushes _ _ _ ord sz).mono fun _ hs => hs.1
  | compressed z cd srt srtU =>
    intro (h : cd.Law) _ s hs
    obtain ⟨c', h1, h2, -⟩ := Compressed.flush_spec h (hs.1.holds h)
    exact ⟨_, c', h1, h2.elems h, List.Perm.refl _⟩
  | inclusive f b ihf ihb =>
    exact fun h n => inclusive_flushes_plain (f.map h.1).1 (b.map h.2.1).1 ((b.map h.2.1).2 h.2.2)
      (ihb h.2.1 n)
  | exclusive f b ihf ihb =>
    exact fun h n => exclusive_map_flushes (f.map h.1).1 (b.map h.2).1 (ihf h.1 n.1) (ihb h.2 n.2)
  | batch c ih => exact fun h n => (batch_flushes (ih h n)).mono fun _ hs => hs.1
  | associative hash c ih => exact fun h n => (associative_flushes (ih h n)).mono fun _ hs => hs.1
  | flushStopper c ih => exact fun _ n => n.elim
  | sequential c ih => exact ih
  | dyn ι c ih => exact fun h n => viaDefault_flushes (anyOf_flushes fun i => ih i (h i) (n i))
  | decorator D A c ih => exact fun h n => decorator_flushes D (ih h.2 n)
  | profiler c ih => exact fun h n => profiler_flushes (ih h n)
  | remote c ih => exact ih

end MapStack
end Byoc
