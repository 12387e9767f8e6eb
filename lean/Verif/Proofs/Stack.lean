import Verif.Model.Stack
import Verif.Proofs.Fair
import Verif.Proofs.Get

/-! # Every stack of building blocks satisfies the contract -/

namespace Byoc

variable {K V : Type}

/-! ## `anyOf` -/

section
variable {ι : Type} {B : ι → Block K V} {I : ∀ i, (B i).State → Prop}
  {e : ∀ i, (B i).State → List (K × V)}

theorem anyOf_core {Pre} (h : ∀ i, Core (B i) (I i) (e i) Pre) :
    Core (anyOf B) (fun s => I s.1 s.2) (fun s => e s.1 s.2) Pre where
  bounded s hs := (h s.1).bounded s.2 hs
  empty_size s hs he := (h s.1).empty_size s.2 hs he
  contains s k hs := by
    obtain ⟨b, c, h1, h2, h3, h4, h5, h6⟩ := (h s.1).contains s.2 k hs
    exact ⟨b, ⟨s.1, c⟩, by simp [anyOf, h1], h2, h3, h4, h5, h6⟩
  take s k hs := by
    obtain ⟨o, c, h1, h2, h3, h4⟩ := (h s.1).take s.2 k hs
    exact ⟨o, ⟨s.1, c⟩, by simp [anyOf, h1], h2, h3, h4⟩
  takeMultiple s ks hs := by
    obtain ⟨o, ks', c, h1, h2, h3, h4⟩ := (h s.1).takeMultiple s.2 ks hs
    exact ⟨o, ks', ⟨s.1, c⟩, by simp [anyOf, h1], h2, h3, h4⟩
  push s l hs hp := by
    obtain ⟨o, c, h1, h2, h3, h4⟩ := (h s.1).push s.2 l hs hp
    exact ⟨o, ⟨s.1, c⟩, by simp [anyOf, h1], h2, h3, h4⟩
  flush s hs := by
    obtain ⟨o, c, h1, h2, h3, h4⟩ := (h s.1).flush s.2 hs
    exact ⟨o, ⟨s.1, c⟩, by simp [anyOf, h1], h2, h3, h4⟩

theorem anyOf_lawful {Pre} (h : ∀ i, Lawful (B i) (I i) (e i) Pre) :
    Lawful (anyOf B) (fun s => I s.1 s.2) (fun s => e s.1 s.2) Pre where
  toCore := anyOf_core fun i => (h i).toCore
  pop s n hs := by
    obtain ⟨o, c, h1, h2, h3, h4⟩ := (h s.1).pop s.2 n hs
    exact ⟨o, ⟨s.1, c⟩, by simp [anyOf, h1], h2, h3, h4⟩

theorem anyOf_flushes (h : ∀ i, Flushes (B i) (I i) (e i)) :
    Flushes (anyOf B) (fun s => I s.1 s.2) (fun s => e s.1 s.2) := by
  intro s hs
  obtain ⟨o, c, h1, h2, h3⟩ := h s.1 s.2 hs
  exact ⟨o, ⟨s.1, c⟩, by simp [anyOf, h1], h2, h3⟩

end

namespace Stack

variable [LinearOrder K]

/-- The invariant of a stack; with `p`, the front of every `Exclusive` has positive capacity. -/
def Inv (p : Prop) : {V : Type} → (t : Stack K V) → t.block.State → Prop
  | _, array sz _ _, s => Array.Inv sz s
  | _, exclusive f b, s => (Inv p f s.1 ∧ (p → 0 < f.block.capacity s.1)) ∧ Inv p b s.2
  | _, batch c, s => batchInv (Inv p c) s
  | _, associative hash c, s => Associative.Inv hash (Inv p c) (elems c) s
  | _, flushStopper c, s => Inv p c s
  | _, sequential c, s => Inv p c s
  | _, dyn _ c, s => Inv p (c s.1) s.2
  | _, decorator _ _ c, s => Inv p c s.1
  | _, profiler c, s => Inv p c s.1

theorem init_elems {V : Type} (t : Stack K V) : ∀ s, t.Init s → t.elems s = [] := by
  induction t with
  | array sz srt srtS => rintro s ⟨n, rfl⟩; rfl
  | exclusive f b ihf ihb => intro s h; simp [elems, ihf _ h.1, ihb _ h.2]
  | batch c ih =>
    intro (s : List c.block.State) h
    exact List.flatMap_eq_nil_iff.2 fun x hx => ih x (h x hx)
  | associative hash c ih =>
    intro (s : List c.block.State) h
    exact List.flatMap_eq_nil_iff.2 fun x hx => ih x (h.2 x hx)
  | flushStopper c ih => exact ih
  | sequential c ih => exact ih
  | dyn ι c ih => intro s h; exact ih _ _ h
  | decorator D A c ih => intro s h; simp [elems, ih _ h]
  | profiler c ih => intro s h; exact ih _ h.1

theorem init_inv {V : Type} (p : Prop) (t : Stack K V) :
    ∀ s, t.Init s → (p → t.FrontRoom s) → t.Inv p s := by
  induction t with
  | array sz srt srtS => rintro s ⟨n, rfl⟩ _; exact Array.new_inv sz n
  | exclusive f b ihf ihb =>
    intro s h r
    exact ⟨⟨ihf _ h.1 fun hp => (r hp).2.1, fun hp => (r hp).1⟩, ihb _ h.2 fun hp => (r hp).2.2⟩
  | batch c ih => intro (s : List c.block.State) h r x hx; exact ih x (h x hx) fun hp => r hp x hx
  | associative hash c ih =>
    intro (s : List c.block.State) h r
    refine ⟨Nat.pos_of_ne_zero h.1, ?_⟩
    intro i x hx
    have hm := List.mem_of_getElem? hx
    refine ⟨ih x (h.2 x hm) fun hp => r hp x hm, ?_⟩
    rw [init_elems c x (h.2 x hm)]
    simp
  | flushStopper c ih => exact ih
  | sequential c ih => exact ih
  | dyn ι c ih => intro s h; exact ih _ _ h
  | decorator D A c ih => intro s h; exact ih _ h
  | profiler c ih => intro s h; exact ih _ h.1

/-- Contract (without `pop`), fairness, strictness and sortedness, together. -/
theorem core_all {V : Type} (p : Prop) (t : Stack K V) : t.WF →
    Core t.block (t.Inv p) t.elems (fun _ => True) ∧
    (t.fairness.1 → Fair t.block (t.Inv p)) ∧ (t.fairness.2 → Strict t.block (t.Inv p)) ∧
    (t.sorted → KeepsSorted t.block (t.Inv p)) := by
  induction t with
  | array sz srt srtS =>
    intro _
    exact ⟨(Array.lawful sz srt srtS).toCore, fun _ => (Array.strict sz srt srtS).fair,
      fun _ => Array.strict sz srt srtS, fun _ => Array.keepsSorted sz srt srtS⟩
  | exclusive f b ihf ihb =>
    intro h
    obtain ⟨cf, ff, sf, kf⟩ := ihf h.1
    obtain ⟨cb, fb, sb, kb⟩ := ihb h.2
    have cf := cf.withCapacity (fun n => p → 0 < n)
    have ff : f.fairness.1 → Fair f.block (fun s => f.Inv p s ∧ (p → 0 < f.block.capacity s)) := fun x => (ff x).mono (fun _ hs => hs.1)
    have sf : f.fairness.2 → Strict f.block (fun s => f.Inv p s ∧ (p → 0 < f.block.capacity s)) := fun x => (sf x).mono (fun _ hs => hs.1)
    have kf : f.sorted → KeepsSorted f.block (fun s => f.Inv p s ∧ (p → 0 < f.block.capacity s)) := fun x => (kf x).mono (fun _ hs => hs.1)
    have hf := fun x : f.fairness.2 ∨ (f.fairness.1 ∧ f.sorted) => x.imp sf fun y => And.intro (ff y.1) (kf y.2)
    exact ⟨exclusive_core cf cb, fun x => exclusive_fair cf cb (hf x.1) (fb x.2),
      fun x => exclusive_strict_of_fair cf cb (hf x.1) (x.2.imp sb fun y => ⟨fb y.1, kb y.2.1, kf y.2.2⟩),
      fun x => exclusive_keepsSorted cf cb (kf x.1) (kb x.2)⟩
  | batch c ih =>
    intro h
    obtain ⟨cc, fc, sc, kc⟩ := ih h
    exact ⟨batch_core cc, fun x => (batch_strict (sc x)).fair, fun x => batch_strict (sc x),
      fun x => batch_keepsSorted (kc x)⟩
  | associative hash c ih =>
    intro h
    obtain ⟨cc, fc, sc, kc⟩ := ih h
    exact ⟨associative_core cc (fun _ _ _ => trivial), fun x => associative_fair (fc x),
      fun x => associative_strict (sc x), fun x => x.elim⟩
  | flushStopper c ih =>
    intro h
    obtain ⟨cc, fc, sc, kc⟩ := ih h
    exact ⟨flushStopper_core cc, fc, sc, kc⟩
  | sequential c ih => exact ih
  | dyn ι c ih =>
    intro h
    have cc := anyOf_core (fun i => (ih i (h i)).1)
    exact ⟨viaDefault_core cc, fun _ => viaDefault_fair cc, fun x => x.elim,
      fun _ => viaDefault_keepsSorted cc⟩
  | decorator D A c ih =>
    intro h
    obtain ⟨cc, fc, sc, kc⟩ := ih h.2
    exact ⟨decorator_core D h.1 cc |>.mono (fun _ _ _ => trivial), fun x => decorator_fair D (fc x),
      fun x => decorator_strict D (sc x), fun x => decorator_keepsSorted D (kc x)⟩
  | profiler c ih =>
    intro h
    obtain ⟨cc, fc, sc, kc⟩ := ih h.2
    exact ⟨profiler_core cc (fc h.1), fun x => profiler_fair (fc x), fun x => profiler_strict (sc x),
      fun x => profiler_keepsSorted (kc x)⟩

theorem core {V : Type} (p : Prop) (t : Stack K V) (h : t.WF) :
    Core t.block (t.Inv p) t.elems (fun _ => True) := (t.core_all p h).1

theorem lawful {V : Type} (p : Prop) (t : Stack K V) : t.WF → t.NoAssociative →
    Lawful t.block (t.Inv p) t.elems (fun _ => True) := by
  induction t with
  | array sz srt srtS => intro _ _; exact Array.lawful sz srt srtS
  | exclusive f b ihf ihb => intro h n; exact exclusive_lawful ((ihf h.1 n.1).withCapacity (fun n => p → 0 < n)) (ihb h.2 n.2)
  | batch c ih => intro h n; exact batch_lawful (ih h n)
  | associative hash c ih => intro _ n; exact n.elim
  | flushStopper c ih => intro h n; exact flushStopper_lawful (ih h n)
  | sequential c ih => exact ih
  | dyn ι c ih => intro h n; exact viaDefault_lawful (anyOf_lawful fun i => ih i (h i) (n i))
  | decorator D A c ih =>
    intro h n
    exact decorator_lawful D h.1 (ih h.2 n) |>.mono (fun _ _ _ => trivial)
  | profiler c ih =>
    intro h n
    exact profiler_lawful (ih h.2 n) ((c.core_all p h.2).2.1 h.1)

theorem flushes {V : Type} (p : Prop) (t : Stack K V) : t.WF → t.NoFlushStopper →
    Flushes t.block (t.Inv p) t.elems := by
  induction t with
  | array sz srt srtS => intro _ _ s _; exact ⟨_, _, rfl, rfl, List.Perm.refl _⟩
  | exclusive f b ihf ihb =>
    intro h n
    exact exclusive_flushes ((f.core p h.1).withCapacity (fun n => p → 0 < n)) (b.core p h.2)
      (fun s hs => ihf h.1 n.1 s hs.1) (ihb h.2 n.2)
  | batch c ih => intro h n; exact batch_flushes (ih h n)
  | associative hash c ih => intro h n; exact associative_flushes (ih h n)
  | flushStopper c ih => intro _ n; exact n.elim
  | sequential c ih => exact ih
  | dyn ι c ih => intro h n; exact viaDefault_flushes (anyOf_flushes fun i => ih i (h i) (n i))
  | decorator D A c ih => intro h n; exact decorator_flushes D (ih h.2 n)
  | profiler c ih => intro h n; exact profiler_flushes (ih h.2 n)

/-! ## Access through cells -/

omit [LinearOrder K] in
theorem _root_.Byoc.anyOf_getLawful {ι : Type} {B : ι → Block K V} {G : ∀ i, GetOps (B i)}
    {I : ∀ i, (B i).State → Prop} {e : ∀ i, (B i).State → List (K × V)} {PreF}
    (h : ∀ i, GetLawful (B i) (G i) (I i) (e i) PreF) :
    GetLawful (anyOf B) (anyOfGet G) (fun s => I s.1 s.2) (fun s => e s.1 s.2) PreF where
  get s k f hs hf := by
    obtain ⟨o, c, h1, h2, h3, h4⟩ := (h s.1).get s.2 k f hs hf
    exact ⟨o, ⟨s.1, c⟩, by simp [anyOfGet, h1], h2, h3, h4⟩
  getMut s k f hs hf := by
    obtain ⟨o, c, h1, h2, h3, h4⟩ := (h s.1).getMut s.2 k f hs hf
    exact ⟨o, ⟨s.1, c⟩, by simp [anyOfGet, h1], h2, h3, h4⟩

omit [LinearOrder K] in
theorem _root_.Byoc.anyOf_slots {ι : Type} {B : ι → Block K V}
    {I : ∀ i, (B i).State → Prop} {e : ∀ i, (B i).State → List (K × V)}
    (h : ∀ i, Slots (B i) (I i) (e i)) :
    Slots (anyOf B) (fun s => I s.1 s.2) (fun s => e s.1 s.2) where
  size s hs := (h s.1).size s.2 hs
  pushExact s l out s' hs he := by
    cases hp : (B s.1).push s.2 l with
    | panic => simp [anyOf, hp] at he
    | ok r =>
      obtain ⟨o, c⟩ := r
      simp only [anyOf, hp, Res.ok_bind, Res.pure_eq, Res.ok.injEq] at he
      cases he
      exact (h s.1).pushExact s.2 l _ c hs hp
  pushOne s x out s' hs hc he := by
    cases hp : (B s.1).push s.2 [x] with
    | panic => simp [anyOf, hp] at he
    | ok r =>
      obtain ⟨o, c⟩ := r
      simp only [anyOf, hp, Res.ok_bind, Res.pure_eq, Res.ok.injEq] at he
      cases he
      exact (h s.1).pushOne s.2 x _ c hs hc hp

theorem slots {V : Type} (p : Prop) (t : Stack K V) : t.WF → t.Counting →
    Slots t.block (t.Inv p) t.elems := by
  induction t with
  | array sz srt srtS =>
    intro _ h
    obtain rfl : sz = fun _ => 1 := funext h
    exact Array.slots srt srtS
  | exclusive f b ihf ihb =>
    intro h n
    exact exclusive_slots ((f.core p h.1).withCapacity (fun n => p → 0 < n)) (b.core p h.2)
      ((ihf h.1 n.1).mono fun _ hs => hs.1) (ihb h.2 n.2)
  | batch c ih => intro h n; exact batch_slots (c.core p h) (ih h n)
  | associative hash c ih => intro _ n; exact n.elim
  | flushStopper c ih => intro h n; exact flushStopper_slots (ih h n)
  | sequential c ih => exact ih
  | dyn ι c ih => intro h n; exact viaDefault_slots (anyOf_slots fun i => ih i (h i) (n i))
  | decorator D A c ih => intro h n; exact decorator_slots D h.1 (ih h.2 n)
  | profiler c ih => intro h n; exact profiler_slots (ih h.2 n)

theorem getLawful {V : Type} (t : Stack K V) : t.WF → t.GetWF →
    GetLawful t.block t.gets (t.Inv True) t.elems (fun _ => True) := by
  induction t with
  | array sz srt srtS =>
    intro _ h
    obtain rfl : sz = fun _ => 1 := funext h
    exact (Array.getLawful _ srt srtS).mono (fun _ _ _ _ => rfl)
  | exclusive f b ihf ihb =>
    intro h n
    have hG := (ihf h.1 n.2.2.1).withCapacity (fun n => True → 0 < n)
    exact exclusive_getLawful ((f.core True h.1).withCapacity (fun n => True → 0 < n)) (b.core True h.2)
      ((f.slots True h.1 n.1).mono fun _ hs => hs.1) (b.slots True h.2 n.2.1)
      (fun s hs => hs.2 trivial) hG
  | batch c ih => intro h n; exact batch_getLawful (ih h n)
  | associative hash c ih => intro h n; exact associative_getLawful hash (ih h n)
  | flushStopper c ih => intro h n; exact flushStopper_getLawful (ih h n)
  | sequential c ih => exact ih
  | dyn ι c ih => intro h n; exact viaDefault_getLawful (anyOf_getLawful fun i => ih i (h i) (n i))
  | decorator D A c ih =>
    intro h n
    exact (decorator_getLawful n.1 (ih h.2 n.2)).mono (fun _ _ _ => trivial)
  | profiler c ih => intro h n; exact profiler_getLawful (ih h.2 n)

end Stack
end Byoc
