import Verif.Proofs.MapStack
import Verif.Props.EvictProps

/-!
# Containers whose elements all take the same room

The element moved by `get` from the back of an `Exclusive` to its front must fit there, and what the
front evicts for it must fit in the back.
-/

namespace Byoc

variable {K V : Type}

/-- Pushing nothing evicts nothing; one element pushed is stored and evicts at most one. -/
structure Admits (B : Block K V) (I : B.State → Prop) (e : B.State → List (K × V)) : Prop where
  quiet : ∀ s out s', I s → B.push s [] = .ok (out, s') → out = []
  admits : ∀ s x out s', I s → DistinctKeys (e s ++ [x]) → B.push s [x] = .ok (out, s') →
    out.length ≤ 1 ∧ x ∈ e s'

/-- Moreover there is room for one element after one was taken out. -/
structure Exchanges (B : Block K V) (I : B.State → Prop) (e : B.State → List (K × V)) : Prop
    extends Admits B I e where
  swaps : ∀ s k x s1 y out s2, I s → B.take s k = .ok (some x, s1) → DistinctKeys (e s1 ++ [y]) →
    B.push s1 [y] = .ok (out, s2) → out = []

theorem small_list {α : Type} {l : List α} (h : l.length ≤ 1) : l = [] ∨ ∃ x, l = [x] := by
  match l, h with
  | [], _ => exact .inl rfl
  | [x], _ => exact .inr ⟨x, rfl⟩

section
variable {B : Block K V} {I : B.State → Prop} {e : B.State → List (K × V)}

/-- What `push` returns, for one element. -/
theorem MapCore.push_of (h : MapCore B I e) {s : B.State} {l out s'} (hs : I s)
    (hd : DistinctKeys (e s ++ l)) (hp : B.push s l = .ok (out, s')) :
    I s' ∧ B.capacity s' = B.capacity s ∧ (e s' ++ out).Perm (e s ++ l) := by
  obtain ⟨o, t, h1, h2⟩ := h.pushFresh s l hs hd
  rw [hp] at h1
  cases h1
  exact h2

theorem MapCore.take_some (h : MapCore B I e) {s : B.State} {k x s'} (hs : I s)
    (hp : B.take s k = .ok (some x, s')) :
    I s' ∧ B.capacity s' = B.capacity s ∧ x.1 = k ∧ (x :: e s').Perm (e s) := by
  obtain ⟨o, t, h1, h2, h3, h4⟩ := h.take s k hs
  rw [hp] at h1
  cases h1
  exact ⟨h2, h3, h4⟩

theorem MapCore.take_none (h : MapCore B I e) {s : B.State} {k s'} (hs : I s)
    (hp : B.take s k = .ok (none, s')) :
    I s' ∧ B.capacity s' = B.capacity s ∧ ¬ HasKey (e s) k ∧ (e s').Perm (e s) := by
  obtain ⟨o, t, h1, h2, h3, h4⟩ := h.take s k hs
  rw [hp] at h1
  cases h1
  exact ⟨h2, h3, h4⟩

theorem Admits.mono {J : B.State → Prop} (h : Admits B I e) (hj : ∀ s, J s → I s) :
    Admits B J e where
  quiet s out s' hs := h.quiet s out s' (hj s hs)
  admits s x out s' hs := h.admits s x out s' (hj s hs)

theorem Exchanges.mono {J : B.State → Prop} (h : Exchanges B I e) (hj : ∀ s, J s → I s) :
    Exchanges B J e where
  quiet s out s' hs := h.quiet s out s' (hj s hs)
  admits s x out s' hs := h.admits s x out s' (hj s hs)
  swaps s k x s1 y out s2 hs := h.swaps s k x s1 y out s2 (hj s hs)

end

/-! ## Exclusive -/

theorem exclusive_admits [LinearOrder K] {F B : Block K V} {If Ib ef eb} (hF : MapCore F If ef)
    (hB : MapCore B Ib eb) (xF : Admits F If ef) (xB : Admits B Ib eb) :
    Admits (exclusive F B)
      (fun s => (If s.1 ∧ Ib s.2) ∧ DistinctKeys (exclusiveElems ef eb s)) (exclusiveElems ef eb) where
  quiet s out s' hs hp := by
    obtain ⟨⟨i1, i2⟩, -⟩ := hs
    obtain ⟨o, f, h1, -⟩ := hF.pushFresh s.1 [] i1 (by simpa using hF.distinct s.1 i1)
    have ho := xF.quiet _ _ _ i1 h1
    subst ho
    obtain ⟨o2, b, h2, -⟩ := hB.pushFresh s.2 [] i2 (by simpa using hB.distinct s.2 i2)
    have ho := xB.quiet _ _ _ i2 h2
    subst ho
    simp only [exclusive, h1, h2, Res.ok_bind, Res.pure_eq, Res.ok.injEq] at hp
    cases hp; rfl
  admits s x out s' hs hd hp := by
    obtain ⟨⟨i1, i2⟩, -⟩ := hs
    have d1 : DistinctKeys (ef s.1 ++ [x]) := hd.part (r := eb s.2) (by
      simp only [exclusiveElems]; perms [])
    obtain ⟨o, f, h1, h2, h3, h4⟩ := hF.pushFresh s.1 [x] i1 d1
    obtain ⟨a1, a2⟩ := xF.admits _ _ _ _ i1 d1 h1
    have d2 : DistinctKeys (eb s.2 ++ o) := hd.part (r := ef f) (by
      simp only [exclusiveElems]; perms [h4])
    obtain ⟨o2, b, g1, g2, g3, g4⟩ := hB.pushFresh s.2 o i2 d2
    simp only [exclusive, h1, g1, Res.ok_bind, Res.pure_eq, Res.ok.injEq] at hp
    cases hp
    refine ⟨?_, by simp [exclusiveElems, a2]⟩
    rcases small_list a1 with rfl | ⟨y, rfl⟩
    · rw [xB.quiet _ _ _ i2 g1]; simp
    · exact (xB.admits _ _ _ _ i2 d2 g1).1

theorem exclusive_exchanges [LinearOrder K] {F B : Block K V} {If Ib ef eb} (hF : MapCore F If ef)
    (hB : MapCore B Ib eb) (xF : Exchanges F If ef) (xB : Exchanges B Ib eb) :
    Exchanges (exclusive F B)
      (fun s => (If s.1 ∧ Ib s.2) ∧ DistinctKeys (exclusiveElems ef eb s)) (exclusiveElems ef eb) where
  toAdmits := exclusive_admits hF hB xF.toAdmits xB.toAdmits
  swaps s k x s1 y out s2 hs ht hd hp := by
    obtain ⟨⟨i1, i2⟩, -⟩ := hs
    obtain ⟨o, f, h1, h2, h3, h4⟩ := hF.take s.1 k i1
    cases o with
    | some z =>
      simp only [exclusive, h1, Res.ok_bind, Res.pure_eq, Res.ok.injEq] at ht
      cases ht
      have d1 : DistinctKeys (ef f ++ [y]) := hd.part (r := eb s.2) (by
        simp only [exclusiveElems]; perms [])
      obtain ⟨o1, f1, p1, -⟩ := hF.pushFresh f [y] h2 d1
      have := xF.swaps _ _ _ _ _ _ _ i1 h1 d1 p1
      subst this
      obtain ⟨o2, b1, p2, -⟩ := hB.pushFresh s.2 [] i2 (by simpa using hB.distinct s.2 i2)
      have := xB.quiet _ _ _ i2 p2
      subst this
      simp only [exclusive, p1, p2, Res.ok_bind, Res.pure_eq, Res.ok.injEq] at hp
      cases hp; rfl
    | none =>
      obtain ⟨o', b, g1, g2, g3, g4⟩ := hB.take s.2 k i2
      simp only [exclusive, h1, g1, Res.ok_bind, Res.pure_eq, Res.ok.injEq] at ht
      cases ht
      have d1 : DistinctKeys (ef f ++ [y]) := hd.part (r := eb b) (by
        simp only [exclusiveElems]; perms [])
      obtain ⟨o1, f1, p1, -, -, p4⟩ := hF.pushFresh f [y] h2 d1
      have a1 := (xF.admits _ _ _ _ h2 d1 p1).1
      have d2 : DistinctKeys (eb b ++ o1) := hd.part (r := ef f1) (by
        simp only [exclusiveElems]; perms [p4])
      obtain ⟨o2, b1, p2, -⟩ := hB.pushFresh b o1 g2 d2
      have ho : o2 = [] := by
        rcases small_list a1 with rfl | ⟨z, rfl⟩
        · exact xB.quiet _ _ _ g2 p2
        · exact xB.swaps _ _ _ _ _ _ _ i2 g1 d2 p2
      subst ho
      simp only [exclusive, p1, p2, Res.ok_bind, Res.pure_eq, Res.ok.injEq] at hp
      cases hp; rfl

/-! ## Batch -/

section
variable {C : Block K V} {I : C.State → Prop} {ec : C.State → List (K × V)}

theorem batch_loop_exchanges (hC : MapCore C I ec) (xC : Admits C I ec) :
    ∀ (s : List C.State) (l : List (K × V)), (∀ c ∈ s, I c) → l.length ≤ 1 →
      DistinctKeys (batchElems ec s ++ l) → ∀ out rest used,
      Batch.pushLoop C s l = .ok (out, rest, used) → out.length ≤ 1 ∧
        (s ≠ [] → ∀ x ∈ l, x ∈ batchElems ec (rest ++ used)) := by
  intro s
  induction s with
  | nil =>
    intro l _ hl _ out rest used hp
    rcases small_list hl with rfl | ⟨x, rfl⟩
    · cases hp; simp
    · cases hp; simp
  | cons c cs ih =>
    intro l hI hl hd out rest used hp
    rcases small_list hl with rfl | ⟨x, rfl⟩
    · cases hp; simp
    have d1 : DistinctKeys (ec c ++ [x]) := hd.part (r := batchElems ec cs) (by
      simp only [batchElems, List.flatMap_cons]; perms [])
    obtain ⟨o, c', h1, h2, h3, h4⟩ := hC.pushFresh c [x] (hI c (by simp)) d1
    obtain ⟨a1, a2⟩ := xC.admits _ _ _ _ (hI c (by simp)) d1 h1
    cases hl : Batch.pushLoop C cs o with
    | panic => simp only [Batch.pushLoop, h1, hl, Res.ok_bind, Res.panic_bind] at hp; cases hp
    | ok r =>
      obtain ⟨o2, rest', used'⟩ := r
      simp only [Batch.pushLoop, h1, hl, Res.ok_bind, Res.pure_eq, Res.ok.injEq] at hp
      cases hp
      have d2 : DistinctKeys (batchElems ec cs ++ o) := hd.part (r := ec c') (by
        simp only [batchElems, List.flatMap_cons]; perms [h4])
      refine ⟨(ih o (fun d hd => hI d (by simp [hd])) a1 d2 _ _ _ hl).1, fun _ z hz => ?_⟩
      have : z = x := by simpa using hz
      subst this
      simp [batchElems, a2]

theorem batch_loop_swaps (hC : MapCore C I ec) (xC : Exchanges C I ec) (k : K) :
    ∀ (s : List C.State) x s1 y out rest used, (∀ c ∈ s, I c) →
      Batch.take C s k = .ok (some x, s1) → DistinctKeys (batchElems ec s1 ++ [y]) →
      Batch.pushLoop C s1 [y] = .ok (out, rest, used) → out = [] := by
  intro s
  induction s with
  | nil => intro x s1 y out rest used _ ht; cases ht
  | cons c cs ih =>
    intro x s1 y out rest used hI ht hd hp
    have ic := hI c (by simp)
    obtain ⟨o, c1, h1, h2, -, h4⟩ := hC.take c k ic
    cases o with
    | some z =>
      simp only [Batch.take, h1, Res.ok_bind, Res.pure_eq, Res.ok.injEq] at ht
      cases ht
      have d1 : DistinctKeys (ec c1 ++ [y]) := hd.part (r := batchElems ec cs) (by
        simp only [batchElems, List.flatMap_cons]; perms [])
      obtain ⟨o1, c2, p1, -⟩ := hC.pushFresh c1 [y] h2 d1
      have := xC.swaps _ _ _ _ _ _ _ ic h1 d1 p1
      subst this
      have : Batch.pushLoop C cs [] = .ok ([], cs, []) := by cases cs <;> rfl
      simp only [Batch.pushLoop, p1, this, Res.ok_bind, Res.pure_eq, Res.ok.injEq] at hp
      cases hp; rfl
    | none =>
      cases hr : Batch.take C cs k with
      | panic => simp only [Batch.take, h1, hr, Res.ok_bind, Res.panic_bind] at ht; cases ht
      | ok r =>
        obtain ⟨o', cs1⟩ := r
        simp only [Batch.take, h1, hr, Res.ok_bind, Res.pure_eq, Res.ok.injEq] at ht
        cases ht
        have d1 : DistinctKeys (ec c1 ++ [y]) := hd.part (r := batchElems ec cs1) (by
          simp only [batchElems, List.flatMap_cons]; perms [])
        obtain ⟨o1, c2, p1, -, -, p4⟩ := hC.pushFresh c1 [y] h2 d1
        have a1 := (xC.admits _ _ _ _ h2 d1 p1).1
        cases hl : Batch.pushLoop C cs1 o1 with
        | panic => simp only [Batch.pushLoop, p1, hl, Res.ok_bind, Res.panic_bind] at hp; cases hp
        | ok r =>
          obtain ⟨o2, rest', used'⟩ := r
          simp only [Batch.pushLoop, p1, hl, Res.ok_bind, Res.pure_eq, Res.ok.injEq] at hp
          cases hp
          rcases small_list a1 with rfl | ⟨z, rfl⟩
          · have : Batch.pushLoop C cs1 [] = .ok ([], cs1, []) := by cases cs1 <;> rfl
            rw [this] at hl
            cases hl; rfl
          · have d2 : DistinctKeys (batchElems ec cs1 ++ [z]) := hd.part (r := ec c2) (by
              simp only [batchElems, List.flatMap_cons]; perms [p4])
            exact ih x cs1 z _ _ _ (fun d hd => hI d (by simp [hd])) hr d2 hl

theorem batch_admits (hC : MapCore C I ec) (xC : Admits C I ec) :
    Admits (batch C)
      (fun s => (batchInv I s ∧ DistinctKeys (batchElems ec s)) ∧ 0 < (batch C).capacity s)
      (batchElems ec) where
  quiet s out s' _ hp := by
    replace hp : Batch.push C s [] = .ok (out, s') := hp
    have : Batch.pushLoop C s [] = .ok ([], s, []) := by
      cases (show List C.State from s) <;> rfl
    simp only [Batch.push, this, Res.ok_bind, Res.pure_eq, Res.ok.injEq] at hp
    cases hp; rfl
  admits := by
    intro (s : List C.State) x out (s' : List C.State) hs hd hp
    replace hp : Batch.push C s [x] = .ok (out, s') := hp
    cases hl : Batch.pushLoop C s [x] with
    | panic => simp only [Batch.push, hl, Res.panic_bind] at hp; cases hp
    | ok r =>
      obtain ⟨o, rest, used⟩ := r
      simp only [Batch.push, hl, Res.ok_bind, Res.pure_eq, Res.ok.injEq] at hp
      cases hp
      obtain ⟨h1, h2⟩ := batch_loop_exchanges hC xC s [x] hs.1.1 (by simp) hd _ _ _ hl
      refine ⟨h1, h2 ?_ x (by simp)⟩
      rintro rfl
      exact absurd hs.2 (by simp [batch])

theorem batch_exchanges (hC : MapCore C I ec) (xC : Exchanges C I ec) :
    Exchanges (batch C)
      (fun s => (batchInv I s ∧ DistinctKeys (batchElems ec s)) ∧ 0 < (batch C).capacity s)
      (batchElems ec) where
  toAdmits := batch_admits hC xC.toAdmits
  swaps := by
    intro (s : List C.State) k x (s1 : List C.State) y out (s2 : List C.State) hs ht hd hp
    replace hp : Batch.push C s1 [y] = .ok (out, s2) := hp
    cases hl : Batch.pushLoop C s1 [y] with
    | panic => simp only [Batch.push, hl, Res.panic_bind] at hp; cases hp
    | ok r =>
      obtain ⟨o, rest, used⟩ := r
      simp only [Batch.push, hl, Res.ok_bind, Res.pure_eq, Res.ok.injEq] at hp
      cases hp
      exact batch_loop_swaps hC xC k s x s1 y _ _ _ hs.1.1 ht hd hl

end

/-! ## Associative -/

theorem associative_admits {hash : K → Nat} {C : Block K V} {I ec} (hC : MapCore C I ec)
    (xC : Admits C I ec) :
    Admits (associative hash C)
      (fun s => Associative.Inv hash I ec s ∧ DistinctKeys (batchElems ec s)) (batchElems ec) := by
  have loop : ∀ (s : List C.State) (gs : List (List (K × V))), s.length = gs.length → (∀ c ∈ s, I c) →
      gs.flatten.length ≤ 1 → DistinctKeys (batchElems ec s ++ gs.flatten) → ∀ out s',
      Associative.pushLoop C s gs = .ok (out, s') →
      out.length ≤ gs.flatten.length ∧ gs.flatten ⊆ batchElems ec s' := by
    intro s
    induction s with
    | nil =>
      intro gs hl _ _ _ out s' hp
      cases gs with
      | cons g gs => simp at hl
      | nil => cases hp; simp
    | cons c cs ih =>
      intro gs hl hI hle hd out s' hp
      cases gs with
      | nil => simp at hl
      | cons g gs =>
        have ic := hI c (by simp)
        rw [List.flatten_cons] at hle hd ⊢
        rw [List.length_append] at hle
        have d1 : DistinctKeys (ec c ++ g) := hd.part (r := batchElems ec cs ++ gs.flatten) (by
          simp only [batchElems_cons]; perms [])
        obtain ⟨o, c', h1, h2, h3, h4⟩ := hC.pushFresh c g ic d1
        have d2 : DistinctKeys (batchElems ec cs ++ gs.flatten) := hd.part (r := ec c ++ g) (by
          simp only [batchElems_cons]; perms [])
        cases hr : Associative.pushLoop C cs gs with
        | panic => simp only [Associative.pushLoop, h1, hr, Res.ok_bind, Res.panic_bind] at hp; cases hp
        | ok r =>
          obtain ⟨o2, cs'⟩ := r
          simp only [Associative.pushLoop, h1, hr, Res.ok_bind, Res.pure_eq, Res.ok.injEq] at hp
          cases hp
          obtain ⟨i1, i2⟩ := ih gs (by simpa using hl) (fun d hd => hI d (by simp [hd])) (by omega) d2 _ _ hr
          have hg : o.length ≤ g.length ∧ g ⊆ ec c' := by
            rcases small_list (show g.length ≤ 1 by omega) with rfl | ⟨x, rfl⟩
            · rw [xC.quiet _ _ _ ic h1]; simp
            · obtain ⟨a1, a2⟩ := xC.admits _ _ _ _ ic d1 h1
              exact ⟨by simpa using a1, by simpa using a2⟩
          refine ⟨by simp only [List.length_append]; omega, ?_⟩
          rw [batchElems_cons]
          intro x hx
          rcases List.mem_append.1 hx with hx | hx
          · exact List.mem_append_left _ (hg.2 hx)
          · exact List.mem_append_right _ (i2 hx)
  have key : ∀ (s : List C.State) (l out s'), Associative.Inv hash I ec s →
      DistinctKeys (batchElems ec s ++ l) → l.length ≤ 1 → Associative.push hash C s l = .ok (out, s') →
      out.length ≤ l.length ∧ l ⊆ batchElems ec s' := by
    intro s l out s' h hd hl hp
    obtain ⟨G, d1, d2, d3, -⟩ := Associative.distribute_replicate hash Prod.fst s.length h.1 l
    simp only [Associative.push, d1, Res.ok_bind] at hp
    have hlen := d3.length_eq
    obtain ⟨h1, h2⟩ := loop s G d2.symm h.2.inv (by omega) (hd.perm (by perms [d3])) _ _ hp
    exact ⟨by omega, fun x hx => h2 (d3.symm.subset hx)⟩
  refine ⟨?_, ?_⟩
  · intro (s : List C.State) out (s' : List C.State) hs hp
    have := (key s [] out s' hs.1 (by simpa using hs.2) (by simp) hp).1
    exact List.eq_nil_of_length_eq_zero (by simpa using this)
  · intro (s : List C.State) x out (s' : List C.State) hs hd hp
    obtain ⟨h1, h2⟩ := key s [x] out s' hs.1 hd (by simp) hp
    exact ⟨by simpa using h1, h2 (by simp)⟩

/-! ## Wrappers -/

theorem viaDefault_admits {C : Block K V} {I ec} (h : Admits C I ec) :
    Admits (viaDefault C) I ec := ⟨h.quiet, h.admits⟩

theorem viaDefault_exchanges {C : Block K V} {I ec} (h : Exchanges C I ec) :
    Exchanges (viaDefault C) I ec := ⟨⟨h.quiet, h.admits⟩, h.swaps⟩

theorem flushStopper_admits {C : Block K V} {I ec} (h : Admits C I ec) :
    Admits (flushStopper C) I ec := ⟨h.quiet, h.admits⟩

theorem flushStopper_exchanges {C : Block K V} {I ec} (h : Exchanges C I ec) :
    Exchanges (flushStopper C) I ec := ⟨⟨h.quiet, h.admits⟩, h.swaps⟩

theorem remote_admits {C : Block K V} {I ec} (h : Admits C I ec) :
    Admits (Socket.remote C) I ec := ⟨h.quiet, h.admits⟩

theorem remote_exchanges {C : Block K V} {I ec} (h : Exchanges C I ec) :
    Exchanges (Socket.remote C) I ec := ⟨⟨h.quiet, h.admits⟩, h.swaps⟩

theorem anyOf_admits {ι : Type} {B : ι → Block K V} {I : ∀ i, (B i).State → Prop}
    {e : ∀ i, (B i).State → List (K × V)} (h : ∀ i, Admits (B i) (I i) (e i)) :
    Admits (anyOf B) (fun s => I s.1 s.2) (fun s => e s.1 s.2) where
  quiet s out s' hs hp := by
    cases hq : (B s.1).push s.2 [] with
    | panic => simp only [anyOf, hq, Res.panic_bind] at hp; cases hp
    | ok r =>
      obtain ⟨o, c⟩ := r
      simp only [anyOf, hq, Res.ok_bind, Res.pure_eq, Res.ok.injEq] at hp
      cases hp
      exact (h s.1).quiet _ _ _ hs hq
  admits s x out s' hs hd hp := by
    cases hq : (B s.1).push s.2 [x] with
    | panic => simp only [anyOf, hq, Res.panic_bind] at hp; cases hp
    | ok r =>
      obtain ⟨o, c⟩ := r
      simp only [anyOf, hq, Res.ok_bind, Res.pure_eq, Res.ok.injEq] at hp
      cases hp
      exact (h s.1).admits _ _ _ _ hs hd hq

theorem anyOf_exchanges {ι : Type} {B : ι → Block K V} {I : ∀ i, (B i).State → Prop}
    {e : ∀ i, (B i).State → List (K × V)} (h : ∀ i, Exchanges (B i) (I i) (e i)) :
    Exchanges (anyOf B) (fun s => I s.1 s.2) (fun s => e s.1 s.2) where
  toAdmits := anyOf_admits fun i => (h i).toAdmits
  swaps s k x s1 y out s2 hs ht hd hp := by
    cases hr : (B s.1).take s.2 k with
    | panic => simp only [anyOf, hr, Res.panic_bind] at ht; cases ht
    | ok r =>
      obtain ⟨o, c⟩ := r
      simp only [anyOf, hr, Res.ok_bind, Res.pure_eq, Res.ok.injEq] at ht
      cases ht
      cases hq : (B s.1).push c [y] with
      | panic => simp only [anyOf, hq, Res.panic_bind] at hp; cases hp
      | ok r =>
        obtain ⟨o, c'⟩ := r
        simp only [anyOf, hq, Res.ok_bind, Res.pure_eq, Res.ok.injEq] at hp
        cases hp
        exact (h s.1).swaps _ _ _ _ _ _ _ hs hr hd hq

theorem profiler_admits {C : Block K V} {I ec} (h : Admits C I ec) :
    Admits (profiler C) (fun s => I s.1) (fun s => ec s.1) where
  quiet s out s' hs hp := by
    cases hq : C.push s.1 [] with
    | panic => simp only [profiler, hq, Res.panic_bind] at hp; cases hp
    | ok r =>
      obtain ⟨o, c⟩ := r
      simp only [profiler, hq, Res.ok_bind, Res.pure_eq, Res.ok.injEq] at hp
      cases hp
      exact h.quiet _ _ _ hs hq
  admits s x out s' hs hd hp := by
    cases hq : C.push s.1 [x] with
    | panic => simp only [profiler, hq, Res.panic_bind] at hp; cases hp
    | ok r =>
      obtain ⟨o, c⟩ := r
      simp only [profiler, hq, Res.ok_bind, Res.pure_eq, Res.ok.injEq] at hp
      cases hp
      exact h.admits _ _ _ _ hs hd hq

theorem profiler_exchanges {C : Block K V} {I ec} (h : Exchanges C I ec) :
    Exchanges (profiler C) (fun s => I s.1) (fun s => ec s.1) where
  toAdmits := profiler_admits h.toAdmits
  swaps s k x s1 y out s2 hs ht hd hp := by
    cases hr : C.take s.1 k with
    | panic => simp only [profiler, hr, Res.panic_bind] at ht; cases ht
    | ok r =>
      obtain ⟨o, c⟩ := r
      simp only [profiler, hr, Res.ok_bind, Res.pure_eq, Res.ok.injEq] at ht
      cases ht
      cases hq : C.push c [y] with
      | panic => simp only [profiler, hq, Res.panic_bind] at hp; cases hp
      | ok r =>
        obtain ⟨o, c'⟩ := r
        simp only [profiler, hq, Res.ok_bind, Res.pure_eq, Res.ok.injEq] at hp
        cases hp
        exact h.swaps _ _ _ _ _ _ _ hs hr hd hq

theorem decorator_admits (D : Decoration V) (hD : D.Faithful) {C : Block K D.Item}
    {I : C.State → Prop} {ec : C.State → List (K × D.Item)} (h : Admits C I ec) :
    Admits (decorator D C) (fun s => I s.1) (decoratorElems D ec) where
  quiet s out s' hs hp := by
    cases hq : C.push s.1 [] with
    | panic => simp only [decorator, wrapAll, hq, Res.panic_bind] at hp; cases hp
    | ok r =>
      obtain ⟨o, c⟩ := r
      simp only [decorator, wrapAll, hq, Res.ok_bind, Res.pure_eq, Res.ok.injEq] at hp
      cases hp
      rw [h.quiet _ _ _ hs hq]
      rfl
  admits s x out s' hs hd hp := by
    obtain ⟨k, v⟩ := x
    cases hq : C.push s.1 [(k, (D.wrap s.2 v).1)] with
    | panic => simp only [decorator, wrapAll, hq, Res.panic_bind] at hp; cases hp
    | ok r =>
      obtain ⟨o, c⟩ := r
      simp only [decorator, wrapAll, hq, Res.ok_bind, Res.pure_eq, Res.ok.injEq] at hp
      cases hp
      have hd' : DistinctKeys (ec s.1 ++ [(k, (D.wrap s.2 v).1)]) := by
        simpa [DistinctKeys, decoratorElems, strip, Function.comp_def] using hd
      obtain ⟨a1, a2⟩ := h.admits _ _ _ _ hs hd' hq
      refine ⟨by simpa using a1, List.mem_map.2 ⟨_, a2, ?_⟩⟩
      simp [strip, hD s.2 v]

theorem decorator_exchanges (D : Decoration V) (hD : D.Faithful) {C : Block K D.Item}
    {I : C.State → Prop} {ec : C.State → List (K × D.Item)} (h : Exchanges C I ec) :
    Exchanges (decorator D C) (fun s => I s.1) (decoratorElems D ec) where
  toAdmits := decorator_admits D hD h.toAdmits
  swaps s k x s1 y out s2 hs ht hd hp := by
    obtain ⟨k', v⟩ := y
    cases hr : C.take s.1 k with
    | panic => simp only [decorator, hr, Res.panic_bind] at ht; cases ht
    | ok r =>
      obtain ⟨o, c⟩ := r
      simp only [decorator, hr, Res.ok_bind, Res.pure_eq, Res.ok.injEq] at ht
      obtain ⟨ho, rfl⟩ := Prod.mk.inj ht
      cases o with
      | none => cases ho
      | some z =>
        cases hq : C.push c [(k', (D.wrap s.2 v).1)] with
        | panic => simp only [decorator, wrapAll, hq, Res.panic_bind] at hp; cases hp
        | ok r =>
          obtain ⟨o, c'⟩ := r
          simp only [decorator, wrapAll, hq, Res.ok_bind, Res.pure_eq, Res.ok.injEq] at hp
          have hd' : DistinctKeys (ec c ++ [(k', (D.wrap s.2 v).1)]) := by
            simpa [DistinctKeys, decoratorElems, strip, Function.comp_def] using hd
          cases hp
          rw [h.swaps _ _ _ _ _ _ _ hs hr hd' hq]
          rfl

/-! ## Array -/

theorem total_const {E : Type} {sz : E → Nat} {c : Nat} (h : ∀ e, sz e = c) (l : List E) :
    total sz l = l.length * c := by
  induction l with
  | nil => simp
  | cons a l ih => rw [total_cons, ih, h, List.length_cons, Nat.add_mul]; omega

theorem le_one_of_mul {n c m : Nat} (hc : 0 < c) (h : n * c ≤ m) (hm : m ≤ c) : n ≤ 1 := by
  by_contra hn
  have : 2 * c ≤ n * c := Nat.mul_le_mul_right c (by omega)
  omega

theorem Array.exchanges [LinearOrder K] {sz : K × V → Nat} {c : Nat} (hc : ∀ e, sz e = c)
    (srt srtS : Sorter (K × V)) :
    Exchanges (arrayBlock sz srt srtS) (fun s => Array.Inv sz s ∧ c ≤ Array.capacity s)
      Array.values where
  quiet := by
    intro (s : Array K V) out s' hs hp
    obtain ⟨t, ht⟩ := Array.quiet sz srt srtS s hs.1
    rw [ht] at hp
    cases hp; rfl
  admits := by
    intro (s : Array K V) x out (s' : Array K V) ⟨h, hr⟩ hd hp
    replace hp : Array.push sz srt srtS s [x] = .ok (out, s') := hp
    have hx : total sz [x] = c := by simp [hc]
    have hs := h.1
    have hb := h.2
    rw [total_const hc] at hs
    rcases Array.push_cases _ srt srtS s [x] h with ⟨h1, h2⟩ | ⟨h1, h2, h3⟩ |
      ⟨h1, p, q, h2, h3, h4, h5, h6⟩ | ⟨h1, h2, o, a', h3, h4⟩
    · rw [h2] at hp; cases hp; simp
    · rw [h3] at hp; cases hp
      have : 0 < c := by
        rcases Nat.eq_zero_or_pos c with h0 | h0
        · rw [h0] at hs hx; simp at hs; omega
        · exact h0
      exact ⟨le_one_of_mul this (Nat.le_refl _) (by omega), by simp⟩
    · omega
    · rw [h4] at hp; cases hp
      refine ⟨?_, by simp⟩
      rw [hx] at h3
      rcases Array.pop_cases _ srt s (c - (s.capacity - s.totalSize)) h with ⟨g1, g2⟩ |
        ⟨g1, g2, g3⟩ | ⟨g1, g2, p, q, g3, g4, g5, g6, g7⟩
      · rw [g2] at h3; cases h3; simp
      · rw [g3] at h3; cases h3
        rcases Nat.eq_zero_or_pos c with h0 | h0
        · omega
        · exact le_one_of_mul h0 (Nat.le_refl _) (by omega)
      · rw [g7] at h3; cases h3
        cases hq : out with
        | nil => exact absurd hq g4
        | cons x q' =>
          have := g6 x q' hq
          rw [total_const hc] at this
          rcases this with rfl | g
          · simp
          · cases q' with
            | nil => simp
            | cons y q'' =>
              rw [List.length_cons, Nat.add_mul] at g
              omega
  swaps := by
    intro (s : Array K V) k x (s1 : Array K V) y out (s2 : Array K V) ⟨h, hr⟩ ht hd hp
    replace hp : Array.push sz srt srtS s1 [y] = .ok (out, s2) := hp
    obtain ⟨o, a, h1, h2, h3, h4⟩ := (Array.lawful sz srt srtS).take s k h
    rw [ht] at h1
    cases h1
    have hp2 := (total_perm sz h4.2).symm
    rw [total_cons, hc] at hp2
    have e1 := h.1
    have e2 : s1.totalSize = total sz s1.values := h2.1
    have e3 := h.2
    have e4 : s1.capacity = s.capacity := h3
    have hx : total sz [y] = c := by simp [hc]
    rcases Array.push_cases _ srt srtS s1 [y] h2 with ⟨h1, h2⟩ | ⟨h1, -⟩ | ⟨h1, -⟩ | ⟨h1, h2, -⟩
    · rw [h2] at hp; cases hp; rfl
    all_goals (exfalso; omega)

/-! ## BTree -/

theorem BTree.exchanges [LinearOrder K] [LinearOrder V] {sz : K × V → Nat} {c : Nat}
    (hc : ∀ e, sz e = c) (hpos : 0 < c) :
    Exchanges (btreeBlock sz) (fun s => BTree.Inv sz s ∧ c ≤ BTree.capacity s)
      (BTree.map (K := K) (V := V)) where
  quiet := by
    intro s out s' hs hp
    obtain ⟨t, ht⟩ := BTree.quiet sz (fun e => by rw [hc]; exact hpos) s hs.1
    rw [ht] at hp
    cases hp; rfl
  admits := by
    intro (s : BTree K V) x out (s' : BTree K V) ⟨h, hr⟩ hd hp
    replace hp : BTree.push sz s [x] = .ok (out, s') := hp
    have hx : total sz [x] = c := by simp [hc]
    have hs := h.1.size
    have hb := h.2
    rw [total_const hc] at hs
    obtain ⟨o, t, g1, g2, g3, g4, g5, -⟩ := BTree.push_cases sz s [x] h (by simp)
    rw [hp] at g1
    cases g1
    obtain ⟨kept, k1, k2, k3⟩ := g5 (by omega)
    refine ⟨?_, k1.symm.subset (by simp)⟩
    by_cases hlt : c < s.capacity
    · obtain ⟨rep, vic, t1, t2, t', p1, p2, p3, p4, p5, p6, p7, p8, p9⟩ :=
        EvictProps.btree_push_split sz s [x] h (by simp) (by omega)
      rw [hp] at p1
      cases p1
      have hrep : rep = [] := by
        rw [List.eq_nil_iff_forall_not_mem]
        intro e he
        have h6 := p6 e he
        simp only [List.map_cons, List.map_nil, List.mem_singleton] at h6
        have : e ∈ s.map := p4.subset (by simp [he])
        have hd' : DistinctKeys (s.map ++ [x]) := hd
        unfold DistinctKeys at hd'
        rw [List.map_append] at hd'
        exact (List.nodup_append.1 hd').2.2 e.1 (List.mem_map_of_mem this) x.1 (by simp) h6
      subst hrep
      rcases p9 with ⟨-, rfl⟩ | ⟨q1, q2⟩
      · simp
      · have hs1 := p2.size
        rw [total_const hc] at hs1
        have hl := p4.length_eq
        simp only [List.append_nil] at hl
        rw [hl] at hs1
        rw [hx] at q2
        rcases BTree.pop_cases sz t1 (c - (t1.capacity - t1.totalSize)) p2 with ⟨a1, a2⟩ |
          ⟨a1, a2, a3⟩ | ⟨a1, a2, p, q, t3, a3, a4, a5, a6, a7, -⟩
        · rw [a2] at q2; cases q2; simp
        · rw [a3] at q2; cases q2
          have : t1.map.length ≤ 1 := le_one_of_mul hpos (Nat.le_refl _) (by rw [hl]; omega)
          simpa [BTree.flush] using this
        · rw [a7] at q2; cases q2
          cases vic with
          | nil => exact absurd rfl a4
          | cons x q' =>
            have := a6 x q' rfl
            rw [total_const hc] at this
            rcases this with rfl | g
            · simp
            · cases q' with
              | nil => simp
              | cons y q'' =>
                rw [List.length_cons, Nat.add_mul] at g
                omega
    · -- the batch takes the whole capacity
      have hl := k2.length_eq
      rw [List.length_append] at hl
      have := le_one_of_mul hpos (Nat.le_refl (s.map.length * c)) (by omega)
      omega
  swaps := by
    intro (s : BTree K V) k x (s1 : BTree K V) y out (s2 : BTree K V) ⟨h, hr⟩ ht hd hp
    replace hp : BTree.push sz s1 [y] = .ok (out, s2) := hp
    obtain ⟨o, a, h1, h2, h3, h4⟩ := (BTree.lawful sz).take s k h
    rw [ht] at h1
    cases h1
    have hp2 := (total_perm sz h4.2).symm
    rw [total_cons, hc] at hp2
    have e1 := h.1.size
    have e2 := h2.1.size
    have e3 := h.2
    have e4 : s1.capacity = s.capacity := h3
    have hy : total sz [y] = c := by simp [hc]
    have hnk : ¬ HasKey s1.map y.1 := by
      rintro ⟨v, hv⟩
      have hd' : DistinctKeys (s1.map ++ [y]) := hd
      unfold DistinctKeys at hd'
      rw [List.map_append] at hd'
      exact (List.nodup_append.1 hd').2.2 y.1 (List.mem_map.2 ⟨_, hv, rfl⟩) y.1 (by simp) rfl
    by_cases hlt : c < s.capacity
    · obtain ⟨t', e⟩ := BTree.push_fits sz s1 [y] h2 (by omega) (by omega) (by simpa using hnk)
      rw [hp] at e
      cases e; rfl
    · have hemp : s1.map = [] := by
        cases hm : s1.map with
        | nil => rfl
        | cons e r =>
          rw [hm, total_cons, hc] at hp2
          omega
      obtain ⟨o, t, g1, g2, g3, g4, g5, -⟩ := BTree.push_cases sz s1 [y] h2 (by simp)
      rw [hp] at g1
      cases g1
      obtain ⟨kept, k1, k2, k3⟩ := g5 (by omega)
      rw [hemp] at k2
      have := List.perm_nil.1 k2
      simp at this
      exact this.2

/-! ## Compressed -/

/-- What `push` does to one element, or none, when every element is serialised to `n` bytes and there is
room for a second header beside the elements. -/
theorem Compressed.push_even {z : Lz4} {cd : VecCodec (K × V)} (hlaw : cd.Law) {n : Nat}
    (hn : ∀ e, ∃ b, cd.enc e = some b ∧ b.length = n) (srtU : Sorter (K × V)) {c : Compressed}
    {l : List (K × V)} (h : Compressed.Holds z cd c l) (hl : l ≠ [] → 16 + l.length * n ≤ c.capacity)
    (hr : 8 + n ≤ c.capacity) (v : List (K × V)) (hv : v.length ≤ 1) {out c'}
    (hp : Compressed.push z cd srtU c v = .ok (out, c')) :
    out.length ≤ v.length ∧ v ⊆ Compressed.elems z cd c' ∧
      ((l ≠ [] → 16 + (l.length + v.length) * n ≤ c.capacity) → out = []) := by
  have hsz : ∀ e, cd.size e = n := by
    intro e
    obtain ⟨b, h1, h2⟩ := hn e
    simp [VecCodec.size, h1, h2]
  obtain ⟨bytes, b1, b2, b3, b4⟩ := h.readBytes
  obtain ⟨eb, he, -⟩ := cd.encode_some v fun o _ => by obtain ⟨b, h1, -⟩ := hn o; simp [h1]
  have e2 := (cd.encode_enc he).2
  rw [total_const hsz] at e2
  have hvn : v.length * n ≤ n := by
    have := Nat.mul_le_mul_right n hv
    omega
  obtain ⟨o, c1, l1, g1, g2, g3, g4, -⟩ := Compressed.push_split hlaw srtU h v
  rw [hp] at g1
  cases g1
  have hel := g2.elems hlaw
  unfold Compressed.push at hp
  rw [b1] at hp
  simp only [b2, h.read hlaw, he, Res.sub_ok b4, Res.ok_bind] at hp
  rw [if_neg (by omega)] at hp
  rw [total_const hsz] at b3
  split at hp
  · rename_i hroom
    cases hw : c.rewrite z cd (l ++ v) with
    | panic => rw [hw] at hp; cases hp
    | ok c2 =>
      rw [hw] at hp
      cases hp
      have : l1.Perm (l ++ v) := by simpa using g4
      exact ⟨by simp, by rw [hel]; exact fun x hx => this.symm.subset (by simp [hx]), fun _ => rfl⟩
  · rename_i hroom
    have hlne : l ≠ [] := by
      intro h0
      rw [if_pos h0] at b3
      omega
    rw [if_neg hlne] at b3
    have hl' := hl hlne
    have hne : srtU.run l ≠ [] := fun h0 => hlne (by simpa [h0] using srtU.perm l)
    obtain ⟨p, q, f1, f2, f3, f4, f5⟩ :=
      findCut_spec cd.size (eb.length - (c.capacity - bytes.length)) (srtU.run l) hne
    rw [f3] at hp
    simp only [f1, List.take_left, List.drop_left] at hp
    cases hw : c.rewrite z cd (p ++ v) with
    | panic => rw [hw] at hp; cases hp
    | ok c2 =>
      rw [hw] at hp
      cases hp
      have hpq : (p ++ out).Perm l := by rw [← f1]; exact srtU.perm l
      have hkeep : l1.Perm (p ++ v) := by
        have : (l1 ++ out).Perm ((p ++ v) ++ out) := by perms [g4, hpq]
        exact (List.perm_append_right_iff out).1 this
      refine ⟨?_, by rw [hel]; exact fun x hx => hkeep.symm.subset (by simp [hx]), fun hfit => ?_⟩
      · cases hv1 : v.length with
        | zero =>
          -- an empty batch asks for no more than a header
          rw [hv1] at e2
          omega
        | succ m =>
          have hv2 : v.length = 1 := by omega
          rw [hv2] at e2
          cases out with
          | nil => simp
          | cons x q' =>
            have := f5 x q' rfl
            rw [total_const hsz] at this
            rcases this with rfl | g
            · simp
            · cases q' with
              | nil => simp
              | cons y q'' =>
                rw [List.length_cons, Nat.add_mul] at g
                omega
      · have := hfit hlne
        rw [Nat.add_mul] at this
        omega

/-- Room for a second header beside the elements, whatever their number. -/
theorem spare_of_mod {n m cap : Nat} (h1 : 16 + n ≤ cap) (h2 : 8 ≤ (cap - 8) % n)
    (h : 8 + m * n ≤ cap) : 16 + m * n ≤ cap := by
  rcases Nat.eq_zero_or_pos n with rfl | hn
  · omega
  have h3 := Nat.div_add_mod (cap - 8) n
  have h4 : m ≤ (cap - 8) / n := (Nat.le_div_iff_mul_le hn).2 (by omega)
  have h5 := Nat.mul_le_mul_left n h4
  rw [Nat.mul_comm n m] at h5
  omega

theorem Compressed.exchanges [LinearOrder K] {z : Lz4} {cd : VecCodec (K × V)} (hlaw : cd.Law) {n : Nat}
    (hn : ∀ e, ∃ b, cd.enc e = some b ∧ b.length = n) (srt srtU : Sorter (K × V)) :
    Exchanges (compressed z cd srt srtU) (fun s => Compressed.Inv z cd s ∧
        (16 + n ≤ Compressed.capacity s ∧ 8 ≤ (Compressed.capacity s - 8) % n))
      (Compressed.elems z cd) := by
  have hsz : ∀ e, cd.size e = n := by
    intro e
    obtain ⟨b, h1, h2⟩ := hn e
    simp [VecCodec.size, h1, h2]
  have spare : ∀ (s : Compressed) l, Compressed.Holds z cd s l →
      (16 + n ≤ s.capacity ∧ 8 ≤ (s.capacity - 8) % n) → l ≠ [] → 16 + l.length * n ≤ s.capacity := by
    intro s l h hr hl
    obtain ⟨b, -, -, h3, h4⟩ := h.readBytes
    rw [if_neg hl, total_const hsz] at h3
    exact spare_of_mod hr.1 hr.2 (by omega)
  refine ⟨⟨?_, ?_⟩, ?_⟩
  · intro (s : Compressed) out (s' : Compressed) ⟨h, hr⟩ hp
    have hh := h.holds hlaw
    have := (Compressed.push_even hlaw hn srtU hh (spare s _ hh hr) (by omega) [] (by simp) hp).1
    exact List.eq_nil_of_length_eq_zero (by simpa using this)
  · intro (s : Compressed) x out (s' : Compressed) ⟨h, hr⟩ hd hp
    have hh := h.holds hlaw
    obtain ⟨h1, h2, -⟩ :=
      Compressed.push_even hlaw hn srtU hh (spare s _ hh hr) (by omega) [x] (by simp) hp
    exact ⟨by simpa using h1, h2 (by simp)⟩
  · intro (s : Compressed) k x (s1 : Compressed) y out (s2 : Compressed) ⟨h, hr⟩ ht hd hp
    have hh := h.holds hlaw
    obtain ⟨o, c1, l1, h1, h2, h3, h4⟩ := Compressed.take_spec hlaw hh k
    replace ht : Compressed.take z cd s k = .ok (some x, s1) := ht
    rw [ht] at h1
    cases h1
    have hr1 : 16 + n ≤ s1.capacity ∧ 8 ≤ (s1.capacity - 8) % n := by rw [h3]; exact hr
    have hlen := h4.2.length_eq
    rw [List.length_cons] at hlen
    have hne : Compressed.elems z cd s ≠ [] := by
      intro h0
      rw [h0] at hlen
      simp at hlen
    refine (Compressed.push_even hlaw hn srtU h2 (spare s1 _ h2 hr1) (by omega) [y] (by simp) hp).2.2 ?_
    intro _
    have := spare s _ hh hr hne
    rw [← hlen, ← h3] at this
    simpa using this

/-! ## Inclusive -/

section
open Inclusive InclusiveProps

variable {F B : Block K (InclCell V)} {If : F.State → Prop} {Ib : B.State → Prop}
  {ef : F.State → List (K × InclCell V)} {eb : B.State → List (K × InclCell V)}

/-- What `push` does to a container in which nothing was copied. -/
theorem inclusive_push_plain (hF : MapCore F If ef) (hB : MapCore B Ib eb) (s : F.State × B.State)
    (hs : inclusivePlainInv If Ib ef eb s) (l : List (K × V)) (hl : DistinctKeys (plain (eb s.2) ++ l)) :
    DistinctKeys (eb s.2 ++ l.map wrap) ∧ ∃ out b f1, B.push s.2 (l.map wrap) = .ok (out, b) ∧
      (inclusive F B).push s l = .ok (plain out, (f1, b)) := by
  obtain ⟨i1, i2, i3, i4⟩ := hs
  have hd : DistinctKeys (eb s.2 ++ l.map wrap) := by
    unfold DistinctKeys at hl ⊢
    rw [List.map_append, wrap_keys]
    rw [List.map_append, plain_keys] at hl
    exact hl
  refine ⟨hd, ?_⟩
  obtain ⟨out, b1, h1, h2, h3, h4⟩ := hB.pushFresh s.2 (l.map wrap) i2 hd
  have hall : ∀ e ∈ eb s.2 ++ l.map wrap, e.2.cloned = false := by
    intro e he
    rcases List.mem_append.1 he with he | he
    · exact i4 e he
    · obtain ⟨x, -, rfl⟩ := List.mem_map.1 he
      rfl
  have ho : ∀ e ∈ out, e.2.cloned = false := fun e he => hall e (h4.subset (by simp [he]))
  obtain ⟨fk, f1, g1, g2, g3, g4⟩ := hF.takeMultiple_nil i1
  refine ⟨out, b1, f1, h1, ?_⟩
  simp only [inclusive, h1, Res.ok_bind, clonedKeys_nil_of ho, g1, filter_of ho,
    List.map_nil, List.append_nil]
  rfl

theorem inclusive_admits (hF : MapCore F If ef) (hB : MapCore B Ib eb) (xB : Admits B Ib eb) :
    Admits (inclusive F B) (inclusivePlainInv If Ib ef eb) (fun s => plain (eb s.2)) where
  quiet s out s' hs hp := by
    obtain ⟨-, o, b, f, h1, h2⟩ := inclusive_push_plain hF hB s hs [] (by
      rw [List.append_nil]
      have := hB.distinct s.2 hs.2.1
      unfold DistinctKeys at this ⊢
      rw [plain_keys]; exact this)
    rw [h2] at hp
    cases hp
    rw [xB.quiet _ _ _ hs.2.1 h1]
    rfl
  admits s x out s' hs hd hp := by
    obtain ⟨hd', o, b, f, h1, h2⟩ := inclusive_push_plain hF hB s hs [x] hd
    rw [h2] at hp
    cases hp
    obtain ⟨a1, a2⟩ := xB.admits _ _ _ _ hs.2.1 hd' h1
    exact ⟨by simpa [plain] using a1, List.mem_map.2 ⟨_, a2, rfl⟩⟩

theorem inclusive_exchanges (hF : MapCore F If ef) (hB : MapCore B Ib eb) (xB : Exchanges B Ib eb) :
    Exchanges (inclusive F B) (inclusivePlainInv If Ib ef eb) (fun s => plain (eb s.2)) where
  toAdmits := inclusive_admits hF hB xB.toAdmits
  swaps s k x s1 y out s2 hs ht hd hp := by
    obtain ⟨i1, i2, i3, i4⟩ := hs
    obtain ⟨o, b1, h1, h2, h3, h4⟩ := hB.take s.2 k i2
    cases o with
    | none =>
      simp only [inclusive, h1, Res.ok_bind, Res.pure_eq, Res.ok.injEq] at ht
      cases ht
    | some e =>
      obtain ⟨hk, hpp⟩ := h4
      have hc : e.2.cloned = false := i4 e (hpp.subset (by simp))
      simp only [inclusive, h1, Res.ok_bind, hc] at ht
      cases ht
      obtain ⟨hd', o, b, f, g1, g2⟩ := inclusive_push_plain hF hB (s.1, b1)
        ⟨i1, h2, i3, fun e he => i4 e (hpp.subset (by simp [he]))⟩ [y] hd
      rw [g2] at hp
      cases hp
      rw [xB.swaps _ _ _ _ _ _ _ i2 h1 hd' g1]
      rfl

end

end Byoc
