import Verif.Proofs.Stack

/-!
# Containers holding each key once, composed

The contract of `Spec.MapLawful` without the accesses, and its preservation by every combinator.  The
method: replace the `push` of a component by one that hands back batches with keys already stored;
the components then satisfy the unconditional contract, so the theorems about combinators apply; and
on batches of fresh keys the replaced container does the same calls as the real one.
-/

namespace Byoc

variable {K V : Type}

/-- The keys are pairwise distinct. -/
abbrev DistinctKeys (l : List (K × V)) : Prop := (l.map Prod.fst).Nodup

theorem DistinctKeys.perm {l l' : List (K × V)} (h : DistinctKeys l) (p : l'.Perm l) :
    DistinctKeys l' := (p.map Prod.fst).nodup_iff.2 h

theorem DistinctKeys.subperm {l l' : List (K × V)} (h : DistinctKeys l) (p : l'.Subperm l) :
    DistinctKeys l' := by
  obtain ⟨m, p1, p2⟩ := p
  exact DistinctKeys.perm (List.Nodup.sublist (p2.map Prod.fst) h) p1.symm

/-- Part of a list with distinct keys, seen through a permutation. -/
theorem DistinctKeys.part {l l' r : List (K × V)} (h : DistinctKeys l) (p : (l' ++ r).Perm l) :
    DistinctKeys l' :=
  h.subperm ((List.sublist_append_left l' r).subperm.trans p.subperm)

/-- The contract without `pop` of containers of distinct keys. -/
structure MapCore (B : Block K V) (Inv : B.State → Prop) (elems : B.State → List (K × V)) : Prop
    extends Core B Inv elems (fun _ => False) where
  distinct : ∀ s, Inv s → DistinctKeys (elems s)
  pushFresh : ∀ s l, Inv s → DistinctKeys (elems s ++ l) →
    ∃ out s', B.push s l = .ok (out, s') ∧ Inv s' ∧
      B.capacity s' = B.capacity s ∧ (elems s' ++ out).Perm (elems s ++ l)

/-- `pop(n)` frees `n` or empties the container; what it returns is what it removes. -/
def PopLaw (B : Block K V) (Inv : B.State → Prop) (elems : B.State → List (K × V)) : Prop :=
  ∀ s n, Inv s → ∃ out s', B.pop s n = .ok (out, s') ∧ Inv s' ∧
    B.capacity s' = B.capacity s ∧ (elems s' ++ out).Perm (elems s) ∧
    (B.size s' + n ≤ B.size s ∨ elems s' = [])

open Classical in
/-- The container handing back batches with keys already stored or repeated. -/
noncomputable abbrev guard (B : Block K V) (elems : B.State → List (K × V)) : Block K V :=
  { B with push := fun s l => if DistinctKeys (elems s ++ l) then B.push s l else .ok (l, s) }

theorem guard_push {B : Block K V} {e : B.State → List (K × V)} {s : B.State} {l : List (K × V)}
    (h : DistinctKeys (e s ++ l)) : (guard B e).push s l = B.push s l := if_pos h

theorem guard_core {B : Block K V} {I e} (h : MapCore B I e) :
    Core (guard B e) I e (fun _ => True) where
  bounded := h.bounded
  empty_size := h.empty_size
  contains := h.contains
  take := h.take
  takeMultiple := h.takeMultiple
  push s l hs _ := by
    by_cases hd : DistinctKeys (e s ++ l)
    · have := h.pushFresh s l hs hd
      simp only [guard, if_pos hd]
      exact this
    · exact ⟨l, s, if_neg hd, hs, rfl, List.Perm.refl _⟩
  flush := h.flush

theorem guard_lawful {B : Block K V} {I e} (h : MapCore B I e) (hp : PopLaw B I e) :
    Lawful (guard B e) I e (fun _ => True) := ⟨guard_core h, hp⟩

/-- From a container agreeing with `B` on fresh batches. -/
theorem MapCore.of {B : Block K V} {I : B.State → Prop} {e : B.State → List (K × V)}
    (push' : B.State → List (K × V) → Res (List (K × V) × B.State))
    (flush' : B.State → Res (List (K × V) × B.State))
    (h : Core { B with push := push', flush := flush' } I e (fun _ => True))
    (hp : ∀ s l, I s → DistinctKeys (e s ++ l) → B.push s l = push' s l)
    (hf : ∀ s, I s → DistinctKeys (e s) → B.flush s = flush' s) :
    MapCore B (fun s => I s ∧ DistinctKeys (e s)) e where
  bounded s hs := h.bounded s hs.1
  empty_size s hs := h.empty_size s hs.1
  contains s k hs := by
    obtain ⟨b, s', h1, h2, h3, h4, h5, h6⟩ := h.contains s k hs.1
    exact ⟨b, s', h1, ⟨h2, by rw [h5]; exact hs.2⟩, h3, h4, h5, h6⟩
  take s k hs := by
    obtain ⟨o, s', h1, h2, h3, h4⟩ := h.take s k hs.1
    refine ⟨o, s', h1, ⟨h2, ?_⟩, h3, h4⟩
    cases o with
    | none => exact hs.2.perm h4.2
    | some x => exact hs.2.part (r := [x]) (by have := h4.2; perms [this])
  takeMultiple s ks hs := by
    obtain ⟨o, ks', s', h1, h2, h3, h4, h5⟩ := h.takeMultiple s ks hs.1
    exact ⟨o, ks', s', h1, ⟨h2, hs.2.part h4⟩, h3, h4, h5⟩
  push s l _ hp := hp.elim
  flush s hs := by
    obtain ⟨o, s', h1, h2, h3, h4⟩ := h.flush s hs.1
    exact ⟨o, s', (hf s hs.1 hs.2).trans h1, ⟨h2, hs.2.part h4⟩, h3, h4⟩
  distinct s hs := hs.2
  pushFresh s l hs hl := by
    obtain ⟨o, s', h1, h2, h3, h4⟩ := h.push s l hs.1 trivial
    exact ⟨o, s', (hp s l hs.1 hl).trans h1, ⟨h2, hl.part h4⟩, h3, h4⟩

theorem PopLaw.distinct {B : Block K V} {I e} (h : PopLaw B I e) :
    PopLaw B (fun s => I s ∧ DistinctKeys (e s)) e := by
  intro s n hs
  obtain ⟨o, s', h1, h2, h3, h4, h5⟩ := h s n hs.1
  exact ⟨o, s', h1, ⟨h2, hs.2.part h4⟩, h3, h4, h5⟩

theorem MapCore.withCapacity {B : Block K V} {I e} (h : MapCore B I e) (q : Nat → Prop) :
    MapCore B (fun s => I s ∧ q (B.capacity s)) e where
  toCore := h.toCore.withCapacity q
  distinct s hs := h.distinct s hs.1
  pushFresh s l hs hl := by
    obtain ⟨o, s', h1, h2, h3, h4⟩ := h.pushFresh s l hs.1 hl
    exact ⟨o, s', h1, ⟨h2, h3 ▸ hs.2⟩, h3, h4⟩

theorem PopLaw.withCapacity {B : Block K V} {I e} (h : PopLaw B I e) (q : Nat → Prop) :
    PopLaw B (fun s => I s ∧ q (B.capacity s)) e := by
  intro s n hs
  obtain ⟨o, s', h1, h2, h3, h4⟩ := h s n hs.1
  exact ⟨o, s', h1, ⟨h2, h3 ▸ hs.2⟩, h3, h4⟩

/-- A container satisfying the contract for all batches satisfies it for fresh ones. -/
theorem Core.map {B : Block K V} {I e Pre} (h : Core B I e Pre)
    (hpre : ∀ l, DistinctKeys l → Pre l) : MapCore B (fun s => I s ∧ DistinctKeys (e s)) e where
  bounded s hs := h.bounded s hs.1
  empty_size s hs := h.empty_size s hs.1
  contains s k hs := by
    obtain ⟨b, s', h1, h2, h3, h4, h5, h6⟩ := h.contains s k hs.1
    exact ⟨b, s', h1, ⟨h2, by rw [h5]; exact hs.2⟩, h3, h4, h5, h6⟩
  take s k hs := by
    obtain ⟨o, s', h1, h2, h3, h4⟩ := h.take s k hs.1
    refine ⟨o, s', h1, ⟨h2, ?_⟩, h3, h4⟩
    cases o with
    | none => exact hs.2.perm h4.2
    | some x => exact hs.2.part (r := [x]) (by have := h4.2; perms [this])
  takeMultiple s ks hs := by
    obtain ⟨o, ks', s', h1, h2, h3, h4, h5⟩ := h.takeMultiple s ks hs.1
    exact ⟨o, ks', s', h1, ⟨h2, hs.2.part h4⟩, h3, h4, h5⟩
  push s l _ hp := hp.elim
  flush s hs := by
    obtain ⟨o, s', h1, h2, h3, h4⟩ := h.flush s hs.1
    exact ⟨o, s', h1, ⟨h2, hs.2.part h4⟩, h3, h4⟩
  distinct s hs := hs.2
  pushFresh s l hs hl := by
    obtain ⟨o, s', h1, h2, h3, h4⟩ := h.push s l hs.1
      (hpre l (hl.subperm (List.sublist_append_right _ _).subperm))
    exact ⟨o, s', h1, ⟨h2, hl.part h4⟩, h3, h4⟩

/-! ## Exclusive -/

theorem exclusive_fresh_push [LinearOrder K] {F B : Block K V} {If ef} {Ib : B.State → Prop}
    {eb : B.State → List (K × V)} (hF : MapCore F If ef)
    (s : F.State × B.State) (l : List (K × V)) (h : If s.1 ∧ Ib s.2)
    (hd : DistinctKeys (exclusiveElems ef eb s ++ l)) :
    (exclusive F B).push s l = (exclusive (guard F ef) (guard B eb)).push s l := by
  have h1 : DistinctKeys (ef s.1 ++ l) := hd.part (r := eb s.2) (by
    simp only [exclusiveElems]; perms [])
  obtain ⟨o, f, p1, -, -, p4⟩ := hF.pushFresh s.1 l h.1 h1
  have h2 : DistinctKeys (eb s.2 ++ o) := hd.part (r := ef f) (by
    simp only [exclusiveElems]; perms [p4])
  simp only [exclusive, if_pos h1, p1, Res.ok_bind, if_pos h2]

theorem exclusive_fresh_flush [LinearOrder K] {F B : Block K V} {If Ib ef eb} (hF : MapCore F If ef)
    (hB : MapCore B Ib eb) (s : F.State × B.State) (h : If s.1 ∧ Ib s.2)
    (hd : DistinctKeys (exclusiveElems ef eb s)) :
    (exclusive F B).flush s = (exclusive (guard F ef) (guard B eb)).flush s := by
  obtain ⟨o1, b1, p1, -, -, p4⟩ := hB.flush s.2 h.2
  obtain ⟨o2, f1, q1, -, -, q4⟩ := hF.flush s.1 h.1
  have h2 : DistinctKeys (eb b1 ++ o2) := hd.part (r := o1 ++ ef f1) (by
    simp only [exclusiveElems]; perms [p4, q4])
  simp only [exclusive, p1, q1, Res.ok_bind, if_pos h2]

theorem exclusive_map [LinearOrder K] {F B : Block K V} {If Ib ef eb} (hF : MapCore F If ef)
    (hB : MapCore B Ib eb) :
    MapCore (exclusive F B)
      (fun s => (If s.1 ∧ Ib s.2) ∧ DistinctKeys (exclusiveElems ef eb s)) (exclusiveElems ef eb) :=
  MapCore.of (B := exclusive F B) (exclusive (guard F ef) (guard B eb)).push
    (exclusive (guard F ef) (guard B eb)).flush
    (exclusive_core (guard_core hF) (guard_core hB))
    (fun s l h hd => exclusive_fresh_push hF s l h hd)
    (fun s h hd => exclusive_fresh_flush hF hB s h hd)

theorem exclusive_popLaw [LinearOrder K] {F B : Block K V} {If Ib ef eb} (hF : MapCore F If ef)
    (hB : MapCore B Ib eb) (pF : PopLaw F If ef) (pB : PopLaw B Ib eb) :
    PopLaw (exclusive F B)
      (fun s => (If s.1 ∧ Ib s.2) ∧ DistinctKeys (exclusiveElems ef eb s)) (exclusiveElems ef eb) :=
  PopLaw.distinct (exclusive_lawful (guard_lawful hF pF) (guard_lawful hB pB)).pop

/-! ## Batch -/

theorem batch_fresh_loop {C : Block K V} {I ec} (hC : MapCore C I ec) :
    ∀ (s : List C.State) (l : List (K × V)), (∀ c ∈ s, I c) → DistinctKeys (batchElems ec s ++ l) →
      Batch.pushLoop C s l = Batch.pushLoop (guard C ec) s l := by
  intro s
  induction s with
  | nil => intro l _ _; cases l <;> rfl
  | cons c cs ih =>
    intro l hI hd
    cases l with
    | nil => rfl
    | cons v vs =>
      rw [batchElems_cons] at hd
      have h1 : DistinctKeys (ec c ++ (v :: vs)) := hd.part (r := batchElems ec cs) (by perms [])
      obtain ⟨o, c', p1, -, -, p4⟩ := hC.pushFresh c (v :: vs) (hI c (by simp)) h1
      have h2 : DistinctKeys (batchElems ec cs ++ o) := hd.part (r := ec c') (by perms [p4])
      have := ih o (fun x hx => hI x (by simp [hx])) h2
      simp only [Batch.pushLoop, p1, Res.ok_bind, if_pos h1, this]

/-- The block with another `push`. -/
abbrev withPush (C : Block K V) (p : C.State → List (K × V) → Res (List (K × V) × C.State)) :
    Block K V := { C with push := p }

section
variable (C : Block K V) (p : C.State → List (K × V) → Res (List (K × V) × C.State))

theorem withPush_contains (k : K) : ∀ s : List C.State,
    Batch.contains (withPush C p) s k = Batch.contains C s k
  | [] => rfl
  | c :: cs => by
    have ih := withPush_contains k cs
    simp only [Batch.contains]
    rw [ih]

theorem withPush_take (k : K) : ∀ s : List C.State,
    Batch.take (withPush C p) s k = Batch.take C s k
  | [] => rfl
  | c :: cs => by
    have ih := withPush_take k cs
    simp only [Batch.take]
    rw [ih]

theorem withPush_takeMultiple : ∀ (s : List C.State) (ks : List K),
    Batch.takeMultiple (withPush C p) s ks = Batch.takeMultiple C s ks
  | [], _ => rfl
  | c :: cs, [] => rfl
  | c :: cs, k :: ks => by
    have ih := withPush_takeMultiple cs
    simp only [Batch.takeMultiple]
    simp only [ih]

theorem withPush_popLoop : ∀ (s : List C.State) (n : Nat),
    Batch.popLoop (withPush C p) s n = Batch.popLoop C s n
  | [], _ => rfl
  | c :: cs, n => by
    have ih := withPush_popLoop cs
    simp only [Batch.popLoop]
    simp only [ih]

theorem withPush_flush : ∀ (s : List C.State),
    Batch.flush (withPush C p) s = Batch.flush C s
  | [] => rfl
  | c :: cs => by
    have ih := withPush_flush cs
    simp only [Batch.flush]
    simp only [ih]

theorem batch_withPush : batch (withPush C p) =
    { batch C with push := Batch.push (withPush C p) } := by
  have h1 : Batch.contains (withPush C p) = Batch.contains C :=
    funext fun s => funext fun k => withPush_contains C p k s
  have h2 : Batch.take (withPush C p) = Batch.take C :=
    funext fun s => funext fun k => withPush_take C p k s
  have h3 : Batch.takeMultiple (withPush C p) = Batch.takeMultiple C :=
    funext fun s => funext fun k => withPush_takeMultiple C p s k
  have h4 : Batch.pop (withPush C p) = Batch.pop C :=
    funext fun s => funext fun n => by
      unfold Batch.pop
      simp only [withPush_popLoop]
  have h5 : Batch.flush (withPush C p) = Batch.flush C := funext fun s => withPush_flush C p s
  simp only [batch]
  congr 1

theorem withPush_takeMultipleLoop : ∀ (s : List C.State) (gs : List (List K)),
    Associative.takeMultipleLoop (withPush C p) s gs = Associative.takeMultipleLoop C s gs
  | [], [] => rfl
  | [], _ :: _ => rfl
  | c :: cs, [] => rfl
  | c :: cs, g :: gs => by
    have ih := withPush_takeMultipleLoop cs gs
    simp only [Associative.takeMultipleLoop]
    simp only [ih]

theorem withPush_assocPopLoop (t : Nat) : ∀ (bs : List (Nat × Nat)) (s : List C.State),
    Associative.popLoop (withPush C p) t bs s = Associative.popLoop C t bs s
  | [], _ => rfl
  | (a, i) :: bs, s => by
    have ih := withPush_assocPopLoop t bs
    simp only [Associative.popLoop]
    simp only [ih]

theorem associative_withPush (hash : K → Nat) : associative hash (withPush C p) =
    { associative hash C with push := Associative.push hash (withPush C p) } := by
  have h3 : Associative.takeMultiple hash (withPush C p) = Associative.takeMultiple hash C :=
    funext fun s => funext fun k => by
      unfold Associative.takeMultiple
      simp only [withPush_takeMultipleLoop]
  have h4 : Associative.pop (withPush C p) = Associative.pop C :=
    funext fun s => funext fun n => by
      unfold Associative.pop
      simp only [withPush_assocPopLoop, withPush_flush]
  have h5 : Batch.flush (withPush C p) = Batch.flush C := funext fun s => withPush_flush C p s
  simp only [associative]
  congr 1
end

/-- Transport of a contract to an equal block. -/
theorem Core.ofEq {B B' : Block K V} {I e Pre} {I' : B'.State → Prop} {e' : B'.State → List (K × V)}
    (h : Core B I e Pre) (hB : B = B') (hI : HEq I I') (he : HEq e e') : Core B' I' e' Pre := by
  subst hB; cases hI; cases he; exact h

theorem PopLaw.ofEq {B B' : Block K V} {I e} {I' : B'.State → Prop} {e' : B'.State → List (K × V)}
    (h : PopLaw B I e) (hB : B = B') (hI : HEq I I') (he : HEq e e') : PopLaw B' I' e' := by
  subst hB; cases hI; cases he; exact h

theorem batch_map {C : Block K V} {I ec} (hC : MapCore C I ec) :
    MapCore (batch C) (fun s => batchInv I s ∧ DistinctKeys (batchElems ec s)) (batchElems ec) :=
  MapCore.of (B := batch C) (Batch.push (guard C ec)) (Batch.flush C)
    (by
      exact (batch_core (guard_core hC)).ofEq (batch_withPush C (guard C ec).push) HEq.rfl HEq.rfl)
    (fun s l h hd => by
      change Batch.push C s l = Batch.push (guard C ec) s l
      simp only [Batch.push]
      rw [batch_fresh_loop hC s l h hd])
    (fun s _ _ => rfl)

theorem batch_popLaw {C : Block K V} {I ec} (hC : MapCore C I ec) (pC : PopLaw C I ec) :
    PopLaw (batch C) (fun s => batchInv I s ∧ DistinctKeys (batchElems ec s)) (batchElems ec) := by
  have := (batch_lawful (guard_lawful hC pC)).pop
  exact PopLaw.distinct (B := batch C) (PopLaw.ofEq
    (B' := { batch C with push := Batch.push (guard C ec) }) this (batch_withPush C (guard C ec).push)
    HEq.rfl HEq.rfl)

/-! ## Associative -/

namespace Associative

theorem fresh_loop {C : Block K V} {ec : C.State → List (K × V)} :
    ∀ (s : List C.State) (gs : List (List (K × V))), s.length = gs.length →
      DistinctKeys (batchElems ec s ++ gs.flatten) →
      pushLoop C s gs = pushLoop (guard C ec) s gs := by
  intro s
  induction s with
  | nil => intro gs _ _; cases gs <;> rfl
  | cons c cs ih =>
    intro gs hl hd
    cases gs with
    | nil => simp at hl
    | cons g gs =>
      rw [batchElems_cons, List.flatten_cons] at hd
      have h1 : DistinctKeys (ec c ++ g) := hd.part (r := batchElems ec cs ++ gs.flatten) (by perms [])
      have h2 : DistinctKeys (batchElems ec cs ++ gs.flatten) := hd.part (r := ec c ++ g) (by perms [])
      have := ih gs (by simpa using hl) h2
      simp only [pushLoop, if_pos h1, this]

end Associative

theorem associative_map {hash : K → Nat} {C : Block K V} {I ec} (hC : MapCore C I ec) :
    MapCore (associative hash C)
      (fun s => Associative.Inv hash I ec s ∧ DistinctKeys (batchElems ec s)) (batchElems ec) :=
  MapCore.of (B := associative hash C) (Associative.push hash (guard C ec)) (Batch.flush C)
    ((associative_core (guard_core hC) (fun _ _ _ => trivial)).ofEq
      (associative_withPush C (guard C ec).push hash) HEq.rfl HEq.rfl)
    (fun s l h hd => by
      change Associative.push hash C s l = Associative.push hash (guard C ec) s l
      obtain ⟨G, g1, g2, g3, -⟩ := Associative.distribute_spec hash (Prod.fst (α := K) (β := V))
        (List.length (α := C.State) s) h.1 l (List.replicate (List.length (α := C.State) s) []) (by simp)
      simp only [Associative.push, g1, Res.ok_bind]
      apply Associative.fresh_loop s G g2.symm
      refine hd.perm ?_
      have : (List.replicate (List.length (α := C.State) s) ([] : List (K × V))).flatten = [] := by simp
      rw [this] at g3
      perms [g3])
    (fun s _ _ => rfl)

/-! ## Wrappers -/

theorem flushStopper_map {C : Block K V} {I ec} (hC : MapCore C I ec) :
    MapCore (flushStopper C) I ec where
  toCore := flushStopper_core hC.toCore
  distinct := hC.distinct
  pushFresh := hC.pushFresh

theorem viaDefault_map [LinearOrder K] {C : Block K V} {I ec} (hC : MapCore C I ec) :
    MapCore (viaDefault C) I ec where
  toCore := viaDefault_core hC.toCore
  distinct := hC.distinct
  pushFresh := hC.pushFresh

theorem anyOf_map {ι : Type} {B : ι → Block K V} {I : ∀ i, (B i).State → Prop}
    {e : ∀ i, (B i).State → List (K × V)} (h : ∀ i, MapCore (B i) (I i) (e i)) :
    MapCore (anyOf B) (fun s => I s.1 s.2) (fun s => e s.1 s.2) where
  toCore := anyOf_core fun i => (h i).toCore
  distinct s hs := (h s.1).distinct s.2 hs
  pushFresh s l hs hl := by
    obtain ⟨o, c, h1, h2, h3, h4⟩ := (h s.1).pushFresh s.2 l hs hl
    exact ⟨o, ⟨s.1, c⟩, by simp [anyOf, h1], h2, h3, h4⟩

theorem anyOf_popLaw {ι : Type} {B : ι → Block K V} {I : ∀ i, (B i).State → Prop}
    {e : ∀ i, (B i).State → List (K × V)} (h : ∀ i, PopLaw (B i) (I i) (e i)) :
    PopLaw (anyOf B) (fun s => I s.1 s.2) (fun s => e s.1 s.2) := by
  intro s n hs
  obtain ⟨o, c, h1, h2, h3, h4⟩ := h s.1 s.2 n hs
  exact ⟨o, ⟨s.1, c⟩, by simp [anyOf, h1], h2, h3, h4⟩

theorem profiler_map {C : Block K V} {I ec} (hC : MapCore C I ec) (fC : Fair C I) :
    MapCore (profiler C) (fun s => I s.1) (fun s => ec s.1) where
  toCore := profiler_core hC.toCore fC
  distinct s hs := hC.distinct s.1 hs
  pushFresh s l hs hl := by
    obtain ⟨o, c, h1, h2, h3, h4⟩ := hC.pushFresh s.1 l hs hl
    exact ⟨o, (c, _), by simp only [profiler, h1, Res.ok_bind]; rfl, h2, h3, h4⟩

theorem profiler_popLaw {C : Block K V} {I ec} (hC : MapCore C I ec) (fC : Fair C I)
    (pC : PopLaw C I ec) : PopLaw (profiler C) (fun s => I s.1) (fun s => ec s.1) :=
  (profiler_lawful (guard_lawful hC pC) fC).pop

theorem decorator_map (D : Decoration V) (hD : D.Faithful) {C : Block K D.Item} {I ec}
    (hC : MapCore C I ec) :
    MapCore (decorator D C) (fun s => I s.1) (decoratorElems D ec) where
  toCore := (decorator_core D hD hC.toCore).mono fun _ h => h.elim
  distinct s hs := by
    have := hC.distinct s.1 hs
    simpa [DistinctKeys, decoratorElems, strip, Function.comp_def] using this
  pushFresh s l hs hl := by
    have hk : ((ec s.1 ++ (wrapAll D s.2 l).1).map Prod.fst) =
        ((decoratorElems D ec s ++ l).map Prod.fst) := by
      have hw := congrArg (List.map Prod.fst) (wrapAll_strip D hD l s.2)
      simp only [List.map_map, Function.comp_def, strip] at hw
      simp only [List.map_append, decoratorElems, List.map_map, Function.comp_def, strip]
      rw [hw]
    have hd : DistinctKeys (ec s.1 ++ (wrapAll D s.2 l).1) := by
      unfold DistinctKeys; rw [hk]; exact hl
    obtain ⟨o, s', h1, h2, h3, h4⟩ := (decorator_core D hD (guard_core hC)).push s l hs (fun _ => trivial)
    refine ⟨o, s', ?_, h2, h3, h4⟩
    refine Eq.trans ?_ h1
    simp only [decorator, if_pos hd]

theorem decorator_popLaw (D : Decoration V) (hD : D.Faithful) {C : Block K D.Item} {I ec}
    (hC : MapCore C I ec) (pC : PopLaw C I ec) :
    PopLaw (decorator D C) (fun s => I s.1) (decoratorElems D ec) :=
  (decorator_lawful D hD (guard_lawful hC pC)).pop

end Byoc
