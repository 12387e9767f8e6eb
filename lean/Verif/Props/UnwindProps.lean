import Verif.Proofs.UnwindMore
import Verif.Props.ArrayProps
import Verif.Props.BTreeProps
import Verif.Props.InclusiveProps

/-!
# C113: panics of the user's functions

`element_size`, comparisons and hashers are functions of the user and may panic.  The user who catches the panic still has
the container.
-/

set_option linter.unusedSectionVars false

namespace Byoc
namespace UnwindProps

open Unwind ArrayProps

variable {K V S : Type}

/-! ## Calls that may panic -/

/-- A call during which the functions of the user do what `w` says: what the caller sees (`none`: a panic), and the
state of the container. -/
def attempt (U : Unwinding S K V) (s : S) (w : Fates) : Op K V → Option (Obs K V) × S
  | .contains k => let r := (U.contains k).run w s; (r.1.map .bool, r.2.2)
  | .take k => let r := (U.take k).run w s; (r.1.map .opt, r.2.2)
  | .takeMultiple ks => let r := (U.takeMultiple ks).run w s; (r.1.map fun p => .keyed p.1 p.2, r.2.2)
  | .pop n => let r := (U.pop n).run w s; (r.1.map .many, r.2.2)
  | .push l => let r := (U.push l).run w s; (r.1.map .many, r.2.2)
  | .flush => let r := U.flush.run w s; (r.1.map .many, r.2.2)

/-- A history in which the caller catches the panics and goes on. -/
def attempts (U : Unwinding S K V) (s : S) : List (Op K V × Fates) → List (Option (Obs K V)) × S
  | [] => ([], s)
  | (op, w) :: l =>
    let r := attempt U s w op
    let rs := attempts U r.2 l
    (r.1 :: rs.1, rs.2)

/-- The elements that the calls that returned handed back. -/
def returned (os : List (Option (Obs K V))) : List (K × V) :=
  os.flatMap fun o => (o.map Obs.elements).getD []

/-- `contains` and `take`. -/
def Lookup : Op K V → Prop
  | .contains _ => True
  | .take _ => True
  | _ => False

/-- No `Sequential` inside.  (A panic inside a `Sequential` poisons it: C35.) -/
def NoSequential : {V : Type} → Stack K V → Prop
  | _, .array _ _ _ => True
  | _, .exclusive f b => NoSequential f ∧ NoSequential b
  | _, .batch c => NoSequential c
  | _, .associative _ c => NoSequential c
  | _, .flushStopper c => NoSequential c
  | _, .sequential _ => False
  | _, .dyn _ c => ∀ i, NoSequential (c i)
  | _, .decorator _ _ c => NoSequential c
  | _, .profiler c => NoSequential c

/-- **The user may go on with the container `s₀` after panics**: whatever was called and whatever panicked, the
container is within its capacity, which has not changed; the next call returns if the functions of the user return; and
`contains` tells what `take` finds. -/
def Safe (B : Block K V) (U : Unwinding B.State K V) (s₀ : B.State) : Prop :=
  ∀ l, B.size (attempts U s₀ l).2 ≤ B.capacity (attempts U s₀ l).2 ∧
    B.capacity (attempts U s₀ l).2 = B.capacity s₀ ∧
    (∀ op, (attempt U (attempts U s₀ l).2 [] op).1 ≠ none) ∧
    ∀ k, ∃ b o, (attempt U (attempts U s₀ l).2 [] (.contains k)).1 = some (.bool b) ∧
      (attempt U (attempts U s₀ l).2 [] (.take k)).1 = some (.opt o) ∧ (b = true ↔ o.isSome)

section General

variable {B : Block K V} {U : Unwinding B.State K V}

/-- A call that returns has done what it does when no function panics. -/
theorem attempt_returns (hA : Agrees B U) {s : B.State} {w : Fates} {op : Op K V} {r : Obs K V} {s' : B.State}
    (h : attempt U s w op = (some r, s')) : B.observe s op = .ok (r, s') := by
  cases op with
  | contains k =>
    rcases hr : (U.contains k).run w s with ⟨o, w', s1⟩
    simp only [attempt, hr, Prod.mk.injEq] at h
    obtain ⟨h1, rfl⟩ := h
    cases o with
    | none => simp at h1
    | some a =>
      have := M.res_of_run hr
      rw [hA.contains] at this
      simp at h1
      simp [Block.observe, this, h1]
  | take k =>
    rcases hr : (U.take k).run w s with ⟨o, w', s1⟩
    simp only [attempt, hr, Prod.mk.injEq] at h
    obtain ⟨h1, rfl⟩ := h
    cases o with
    | none => simp at h1
    | some a =>
      have := M.res_of_run hr
      rw [hA.take] at this
      simp at h1
      simp [Block.observe, this, h1]
  | takeMultiple ks =>
    rcases hr : (U.takeMultiple ks).run w s with ⟨o, w', s1⟩
    simp only [attempt, hr, Prod.mk.injEq] at h
    obtain ⟨h1, rfl⟩ := h
    cases o with
    | none => simp at h1
    | some a =>
      have := M.res_of_run hr
      rw [hA.takeMultiple] at this
      simp at h1
      subst h1
      cases hb : B.takeMultiple s ks with
      | panic => simp [hb] at this
      | ok p =>
        simp only [hb, Res.ok_bind, Res.ok.injEq, Prod.mk.injEq] at this
        obtain ⟨rfl, rfl⟩ := this
        simp [Block.observe, hb]
  | pop n =>
    rcases hr : (U.pop n).run w s with ⟨o, w', s1⟩
    simp only [attempt, hr, Prod.mk.injEq] at h
    obtain ⟨h1, rfl⟩ := h
    cases o with
    | none => simp at h1
    | some a =>
      have := M.res_of_run hr
      rw [hA.pop] at this
      simp at h1
      simp [Block.observe, this, h1]
  | push l =>
    rcases hr : (U.push l).run w s with ⟨o, w', s1⟩
    simp only [attempt, hr, Prod.mk.injEq] at h
    obtain ⟨h1, rfl⟩ := h
    cases o with
    | none => simp at h1
    | some a =>
      have := M.res_of_run hr
      rw [hA.push] at this
      simp at h1
      simp [Block.observe, this, h1]
  | flush =>
    rcases hr : U.flush.run w s with ⟨o, w', s1⟩
    simp only [attempt, hr, Prod.mk.injEq] at h
    obtain ⟨h1, rfl⟩ := h
    cases o with
    | none => simp at h1
    | some a =>
      have := M.res_of_run hr
      rw [hA.flush] at this
      simp at h1
      simp [Block.observe, this, h1]

/-- When no function panics, a call is the one of the model. -/
theorem attempt_quiet (hA : Agrees B U) {s : B.State} {op : Op K V} {r : Obs K V} {s' : B.State}
    (h : B.observe s op = .ok (r, s')) : attempt U s [] op = (some r, s') := by
  have key : (attempt U s [] op).1 ≠ none := by
    cases op with
    | contains k =>
      cases hb : B.contains s k with
      | panic => simp [Block.observe, hb] at h
      | ok p =>
        have := M.run_of_res ((hA.contains s k).trans hb)
        simp [attempt, this]
    | take k =>
      cases hb : B.take s k with
      | panic => simp [Block.observe, hb] at h
      | ok p =>
        have := M.run_of_res ((hA.take s k).trans hb)
        simp [attempt, this]
    | takeMultiple ks =>
      cases hb : B.takeMultiple s ks with
      | panic => simp [Block.observe, hb] at h
      | ok p =>
        have := M.run_of_res ((hA.takeMultiple s ks).trans (by rw [hb, Res.ok_bind]))
        simp [attempt, this]
    | pop n =>
      cases hb : B.pop s n with
      | panic => simp [Block.observe, hb] at h
      | ok p =>
        have := M.run_of_res ((hA.pop s n).trans hb)
        simp [attempt, this]
    | push l =>
      cases hb : B.push s l with
      | panic => simp [Block.observe, hb] at h
      | ok p =>
        have := M.run_of_res ((hA.push s l).trans hb)
        simp [attempt, this]
    | flush =>
      cases hb : B.flush s with
      | panic => simp [Block.observe, hb] at h
      | ok p =>
        have := M.run_of_res ((hA.flush s).trans hb)
        simp [attempt, this]
  rcases ha : attempt U s [] op with ⟨o, s1⟩
  cases o with
  | none => simp [ha] at key
  | some r1 =>
    have := attempt_returns hA ha
    rw [h] at this
    cases this
    rfl

variable {Inv : B.State → Prop} {elems : B.State → List (K × V)} {q : Prop}

/-- What a call keeps, whether it returns or panics. -/
theorem attempt_kept (hA : Agrees B U) (hC : Core B Inv elems (fun _ => True)) (hP : PopOk B Inv elems)
    (hS : Survives B Inv elems q U) {s : B.State} (hI : Inv s) (w : Fates) (op : Op K V) :
    Inv (attempt U s w op).2 ∧ B.capacity (attempt U s w op).2 ≤ B.capacity s ∧
      (q → B.capacity (attempt U s w op).2 = B.capacity s) ∧
      ∃ lost, (elems (attempt U s w op).2 ++ returned [(attempt U s w op).1] ++ lost).Perm (elems s ++ op.given) ∧
        ((attempt U s w op).1 ≠ none → lost = []) ∧ (Lookup op → lost = []) ∧
        ∀ ks, op = .takeMultiple ks → ∀ e ∈ lost, e.1 ∈ ks := by
  rcases ha : attempt U s w op with ⟨o, s'⟩
  cases o with
  | some r =>
    have ho := attempt_returns hA ha
    have hs : B.step s op = .ok (r.elements, s') := by rw [Block.step_eq_observe, ho]; rfl
    obtain ⟨h1, h2, h3⟩ := hC.step_ok hP s hI op (okTrue op) _ _ hs
    exact ⟨h1, h2.le, fun _ => h2, [], by simpa [returned] using h3, fun _ => rfl, fun _ => rfl, by simp⟩
  | none =>
    cases op with
    | contains k =>
      rcases hr : (U.contains k).run w s with ⟨o, w', s1⟩
      simp only [attempt, hr, Prod.mk.injEq] at ha
      obtain ⟨h1, rfl⟩ := ha
      cases o with
      | some a => simp at h1
      | none =>
        obtain ⟨h1, h2, h3, lost, h4, h5⟩ := hS.contains s k hI _ _ _ hr
        have : lost = [] := List.eq_nil_iff_forall_not_mem.2 h5
        subst this
        exact ⟨h1, h2, fun _ => h3 trivial, [], by simpa [returned, Op.given] using h4, by simp, by simp, by simp⟩
    | take k =>
      rcases hr : (U.take k).run w s with ⟨o, w', s1⟩
      simp only [attempt, hr, Prod.mk.injEq] at ha
      obtain ⟨h1, rfl⟩ := ha
      cases o with
      | some a => simp at h1
      | none =>
        obtain ⟨h1, h2, h3, lost, h4, h5⟩ := hS.take s k hI _ _ _ hr
        have : lost = [] := List.eq_nil_iff_forall_not_mem.2 h5
        subst this
        exact ⟨h1, h2, fun _ => h3 trivial, [], by simpa [returned, Op.given] using h4, by simp, by simp, by simp⟩
    | takeMultiple ks =>
      rcases hr : (U.takeMultiple ks).run w s with ⟨o, w', s1⟩
      simp only [attempt, hr, Prod.mk.injEq] at ha
      obtain ⟨h1, rfl⟩ := ha
      cases o with
      | some a => simp at h1
      | none =>
        obtain ⟨h1, h2, h3, lost, h4, h5⟩ := hS.takeMultiple s ks hI _ _ _ hr
        exact ⟨h1, h2, fun _ => h3 trivial, lost, by simpa [returned, Op.given] using h4, by simp,
          by simp [Lookup], fun ks' hk => by cases hk; exact h5⟩
    | pop n =>
      rcases hr : (U.pop n).run w s with ⟨o, w', s1⟩
      simp only [attempt, hr, Prod.mk.injEq] at ha
      obtain ⟨h1, rfl⟩ := ha
      cases o with
      | some a => simp at h1
      | none =>
        obtain ⟨h1, h2, h3, lost, h4, -⟩ := hS.pop s n hI _ _ _ hr
        exact ⟨h1, h2, h3, lost, by simpa [returned, Op.given] using h4, by simp, by simp [Lookup], by simp⟩
    | push l =>
      rcases hr : (U.push l).run w s with ⟨o, w', s1⟩
      simp only [attempt, hr, Prod.mk.injEq] at ha
      obtain ⟨h1, rfl⟩ := ha
      cases o with
      | some a => simp at h1
      | none =>
        obtain ⟨h1, h2, h3, lost, h4, -⟩ := hS.push s l hI _ _ _ hr
        exact ⟨h1, h2, h3, lost, by simpa [returned, Op.given] using h4, by simp, by simp [Lookup], by simp⟩
    | flush =>
      rcases hr : U.flush.run w s with ⟨o, w', s1⟩
      simp only [attempt, hr, Prod.mk.injEq] at ha
      obtain ⟨h1, rfl⟩ := ha
      cases o with
      | some a => simp at h1
      | none =>
        obtain ⟨h1, h2, h3, lost, h4, -⟩ := hS.flush s hI _ _ _ hr
        exact ⟨h1, h2, h3, lost, by simpa [returned, Op.given] using h4, by simp, by simp [Lookup], by simp⟩

theorem returned_cons (o : Option (Obs K V)) (os) : returned (o :: os) = returned [o] ++ returned os := by
  simp [returned]

theorem attempts_kept (hA : Agrees B U) (hC : Core B Inv elems (fun _ => True)) (hP : PopOk B Inv elems)
    (hS : Survives B Inv elems q U) : ∀ (l : List (Op K V × Fates)) {s : B.State}, Inv s →
    Inv (attempts U s l).2 ∧ B.capacity (attempts U s l).2 ≤ B.capacity s ∧
      (q → B.capacity (attempts U s l).2 = B.capacity s) ∧
      ∃ lost, (elems (attempts U s l).2 ++ returned (attempts U s l).1 ++ lost).Perm
          (elems s ++ l.flatMap fun c => c.1.given) ∧
        ((∀ c ∈ l.zip (attempts U s l).1, c.2 = none → Lookup c.1.1) → lost = []) := by
  intro l
  induction l with
  | nil => intro s hI; exact ⟨hI, Nat.le_refl _, fun _ => rfl, [], by simp [attempts, returned], fun _ => rfl⟩
  | cons c l ih =>
    intro s hI
    obtain ⟨op, w⟩ := c
    obtain ⟨h1, h2, h3, lost, h4, h5, h6, -⟩ := attempt_kept hA hC hP hS hI w op
    obtain ⟨g1, g2, g3, losts, g4, g5⟩ := ih h1
    refine ⟨g1, g2.trans h2, fun x => (g3 x).trans (h3 x), losts ++ lost, ?_, fun hz => ?_⟩
    · show (elems (attempts U (attempt U s w op).2 l).2 ++
        returned ((attempt U s w op).1 :: (attempts U (attempt U s w op).2 l).1) ++ (losts ++ lost)).Perm
          (elems s ++ (op.given ++ l.flatMap fun c => c.1.given))
      rw [returned_cons]
      perms [h4, g4]
    · have z1 := hz ((op, w), (attempt U s w op).1) (by simp [attempts])
      have e1 : lost = [] := by
        by_cases hn : (attempt U s w op).1 = none
        · exact h6 (z1 hn)
        · exact h5 hn
      have e2 : losts = [] := g5 fun c hc => hz c (by simp only [attempts, List.zip_cons_cons]; exact List.mem_cons_of_mem _ hc)
      simp [e1, e2]

/-- A call of a lawful container returns when no function panics. -/
theorem quiet_returns {Pre : List (K × V) → Prop} (hA : Agrees B U) (hL : Lawful B Inv elems Pre) {s : B.State}
    (hI : Inv s) (op : Op K V) (hop : op.Ok Pre) : (attempt U s [] op).1 ≠ none := by
  obtain ⟨out, s', hs, -⟩ := hL.step s hI op hop
  rw [Block.step_eq_observe] at hs
  cases ho : B.observe s op with
  | panic => simp [ho] at hs
  | ok p =>
    rw [attempt_quiet hA (r := p.1) (s' := p.2) ho]
    simp

/-- A call that returns conserves the elements. -/
theorem returns_conserve {Pre : List (K × V) → Prop} (hA : Agrees B U) (hL : Lawful B Inv elems Pre) {s : B.State}
    (hI : Inv s) {op : Op K V} (hop : op.Ok Pre) {w : Fates} {r : Obs K V} {s' : B.State}
    (h : attempt U s w op = (some r, s')) :
    Inv s' ∧ B.capacity s' = B.capacity s ∧ (elems s' ++ returned [some r]).Perm (elems s ++ op.given) := by
  have ho := attempt_returns hA h
  have hs : B.step s op = .ok (r.elements, s') := by rw [Block.step_eq_observe, ho]; rfl
  obtain ⟨h1, h2, h3⟩ := hL.toCore.step_ok hL.popOk s hI op hop _ _ hs
  exact ⟨h1, h2, by simpa [returned] using h3⟩

/-- In a state with the invariant, `contains` and `take` find what is stored. -/
theorem lookups (hA : Agrees B U) (hC : Core B Inv elems (fun _ => True)) {s : B.State} (hI : Inv s) (k : K) :
    ∃ b o, (attempt U s [] (.contains k)).1 = some (.bool b) ∧ (attempt U s [] (.take k)).1 = some (.opt o) ∧
      (b = true ↔ HasKey (elems s) k) ∧ (o.isSome ↔ HasKey (elems s) k) ∧ ∀ e ∈ o, e.1 = k ∧ e ∈ elems s := by
  obtain ⟨b, s1, h1, -, -, -, -, h6⟩ := hC.contains s k hI
  obtain ⟨o, s2, g1, -, -, g4⟩ := hC.take s k hI
  refine ⟨b, o, ?_, ?_, h6, ?_⟩
  · rw [attempt_quiet hA (r := .bool b) (s' := s1) (by simp [Block.observe, h1])]
  · rw [attempt_quiet hA (r := .opt o) (s' := s2) (by simp [Block.observe, g1])]
  · cases o with
    | none => simpa using g4.1
    | some e =>
      have hm : e ∈ elems s := g4.2.mem_iff.1 (by simp)
      refine ⟨⟨fun _ => ⟨e.2, g4.1 ▸ hm⟩, fun _ => rfl⟩, ?_⟩
      intro e' he'
      cases he'
      exact ⟨g4.1, hm⟩

end General

section Stacks

variable [LinearOrder K] {left : (W : Type) → Nat → List (K × W) → List (K × W)}

/-- **C113 (calls that return).** Whatever the assembly, a call during which a function panicked and that returned, or
one that was made after panics, does what the model used everywhere else says. -/
theorem C113_returns (t : Stack K V) (s s' : t.block.State) (w : Fates) (op : Op K V) (r : Obs K V)
    (h : attempt (stack left t) s w op = (some r, s')) : t.block.observe s op = .ok (r, s') :=
  attempt_returns (stack_agrees left t) h

/-- **C113.** Any assembly of `Array`, `Exclusive`, `Batch`, `Associative`, `FlushStopper`, `Decorator`, `Profiler` and
dynamic containers.  After any history of calls, some of which panicked because functions of the user did:
the container is within its capacity, and nothing in it or handed back was not pushed; the capacity did not grow, and
without `Batch` did not change; and if only `contains` and `take` panicked, nothing was lost. -/
theorem C113_partial (hl : ∀ W n l, (left W n l).Perm l) (t : Stack K V) (hw : t.WF) (_ : NoSequential t)
    (s : t.block.State) (hi : t.Init s) (l : List (Op K V × Fates)) :
    t.block.size (attempts (stack left t) s l).2 ≤ t.block.capacity (attempts (stack left t) s l).2 ∧
    t.block.capacity (attempts (stack left t) s l).2 ≤ t.block.capacity s ∧
    (NoBatch t → t.block.capacity (attempts (stack left t) s l).2 = t.block.capacity s) ∧
    (t.elems (attempts (stack left t) s l).2 ++ returned (attempts (stack left t) s l).1).Subperm
      (l.flatMap fun c => c.1.given) ∧
    ((∀ c ∈ l.zip (attempts (stack left t) s l).1, c.2 = none → Lookup c.1.1) →
      (t.elems (attempts (stack left t) s l).2 ++ returned (attempts (stack left t) s l).1).Perm
        (l.flatMap fun c => c.1.given)) := by
  obtain ⟨h1, h2, h3, lost, h4, h5⟩ := attempts_kept (stack_agrees left t) (t.core False hw) (t.popOk False hw)
    (stack_survives hl t hw) l (t.init_inv False s hi fun h => h.elim)
  rw [t.init_elems s hi] at h4
  refine ⟨(t.core False hw).bounded _ h1, h2, h3, ?_, fun hz => ?_⟩
  · exact (List.sublist_append_left _ lost).subperm.trans (by simpa using h4.subperm)
  · rw [h5 hz] at h4
    simpa using h4

/-- **C113 (one call).** In the state after any such history: a call that panics keeps the container within its capacity;
`contains` and `take` that panic lose nothing, and a `take_multiple` only elements that were requested. -/
theorem C113_call_partial (hl : ∀ W n l, (left W n l).Perm l) (t : Stack K V) (hw : t.WF) (_ : NoSequential t)
    (s₀ : t.block.State) (hi : t.Init s₀) (l : List (Op K V × Fates)) (s s' : t.block.State)
    (hs : s = (attempts (stack left t) s₀ l).2) (w : Fates) (op : Op K V) (o : Option (Obs K V))
    (h : attempt (stack left t) s w op = (o, s')) :
    t.block.size s' ≤ t.block.capacity s' ∧
    ∃ lost, (t.elems s' ++ returned [o] ++ lost).Perm (t.elems s ++ op.given) ∧
      (o ≠ none → lost = []) ∧ (Lookup op → lost = []) ∧
      (∀ ks, op = .takeMultiple ks → ∀ e ∈ lost, e.1 ∈ ks) := by
  subst hs
  obtain ⟨h1, -⟩ := attempts_kept (stack_agrees left t) (t.core False hw) (t.popOk False hw)
    (stack_survives hl t hw) l (t.init_inv False s₀ hi fun h => h.elim)
  obtain ⟨g1, -, -, g4⟩ := attempt_kept (stack_agrees left t) (t.core False hw) (t.popOk False hw)
    (stack_survives hl t hw) h1 w op
  rw [h] at g1 g4
  exact ⟨(t.core False hw).bounded _ g1, g4⟩

/-- **C113 (afterwards).** After any such history `contains` and `take` find exactly what is stored. -/
theorem C113_lookups_partial (hl : ∀ W n l, (left W n l).Perm l) (t : Stack K V) (hw : t.WF) (_ : NoSequential t)
    (s₀ : t.block.State) (hi : t.Init s₀) (l : List (Op K V × Fates)) (k : K) :
    ∃ b o, (attempt (stack left t) (attempts (stack left t) s₀ l).2 [] (.contains k)).1 = some (.bool b) ∧
      (attempt (stack left t) (attempts (stack left t) s₀ l).2 [] (.take k)).1 = some (.opt o) ∧
      (b = true ↔ HasKey (t.elems (attempts (stack left t) s₀ l).2) k) ∧
      (o.isSome ↔ HasKey (t.elems (attempts (stack left t) s₀ l).2) k) ∧
      ∀ e ∈ o, e.1 = k ∧ e ∈ t.elems (attempts (stack left t) s₀ l).2 := by
  obtain ⟨h1, -⟩ := attempts_kept (stack_agrees left t) (t.core False hw) (t.popOk False hw)
    (stack_survives hl t hw) l (t.init_inv False s₀ hi fun h => h.elim)
  exact lookups (stack_agrees left t) (t.core False hw) h1 k

/-- **C113 (safe assemblies).** Without `Batch` and `Associative` the user may go on after panics. -/
theorem C113_safe_partial (hl : ∀ W n l, (left W n l).Perm l) (t : Stack K V) (hw : t.WF) (_ : NoSequential t)
    (hb : NoBatch t) (hn : t.NoAssociative) (s₀ : t.block.State) (hi : t.Init s₀) :
    Safe t.block (stack left t) s₀ := by
  intro l
  obtain ⟨h1, -, h3, -⟩ := attempts_kept (stack_agrees left t) (t.core False hw) (t.popOk False hw)
    (stack_survives hl t hw) l (t.init_inv False s₀ hi fun h => h.elim)
  refine ⟨(t.core False hw).bounded _ h1, h3 hb, fun op => ?_, fun k => ?_⟩
  · exact quiet_returns (stack_agrees left t) (t.lawful False hw hn) h1 op (okTrue op)
  · obtain ⟨b, o, h1, h2, h3, h4, -⟩ := lookups (stack_agrees left t) (t.core False hw) h1 k
    exact ⟨b, o, h1, h2, h3.trans h4.symm⟩

end Stacks

section ArrayOnly

variable [LinearOrder K] {left : Nat → List (K × V) → List (K × V)}

/-- **C113 (`Array`).** Calls of an `Array` are atomic with respect to panics, except for `take_multiple`: a `contains` or
`take` that panics leaves it as it was, and a `pop` or `push` that panics leaves it with the same elements and size. -/
theorem C113_array (hl : ∀ n l, (left n l).Perm l) (sz : K × V → Nat) (srt srtS : Sorter (K × V)) (n : Nat)
    (l : List (Op K V × Fates)) (a a' : Array K V)
    (ha : a = (attempts (array sz srt srtS left) (Array.new n) l).2) (w : Fates) (op : Op K V)
    (h : attempt (array sz srt srtS left) a w op = (none, a')) :
    (Lookup op → a' = a) ∧
    ((∀ ks, op ≠ .takeMultiple ks) → a'.values.Perm a.values ∧ a'.totalSize = a.totalSize ∧ a'.capacity = n) := by
  have hk := attempts_kept (B := arrayBlock sz srt srtS) (array_agrees sz srt srtS left)
    (Array.lawful sz srt srtS).toCore (Array.lawful sz srt srtS).popOk (array_survives hl True) l
    (s := Array.new n) (Array.new_inv sz n)
  obtain ⟨hI, -, hc, -⟩ := hk
  have hI : Array.Inv sz a := ha ▸ hI
  have hc : a.capacity = n := ha ▸ hc trivial
  have same : ∀ a' : Array K V, Array.Inv sz a' → a'.values.Perm a.values → a'.totalSize = a.totalSize := by
    intro a' h' hp
    rw [h'.1, hI.1]
    exact total_perm sz hp
  cases op with
  | contains k =>
    rcases hr : ((array sz srt srtS left).contains k).run w a with ⟨o, w', s1⟩
    simp only [attempt, hr, Prod.mk.injEq] at h
    obtain ⟨h1, rfl⟩ := h
    cases o with
    | some _ => simp at h1
    | none =>
      have he : ((array sz srt srtS left).contains k).Esc a (fun a' => a' = a) :=
        M.esc_withState (esc_user_bind rfl (M.esc_pure _ _ _))
      have := he _ _ _ hr
      subst this
      exact ⟨fun _ => rfl, fun _ => ⟨List.Perm.refl _, rfl, hc⟩⟩
  | take k =>
    rcases hr : ((array sz srt srtS left).take k).run w a with ⟨o, w', s1⟩
    simp only [attempt, hr, Prod.mk.injEq] at h
    obtain ⟨h1, rfl⟩ := h
    cases o with
    | some _ => simp at h1
    | none =>
      have := arrayTake_esc a k _ _ _ hr
      subst this
      exact ⟨fun _ => rfl, fun _ => ⟨List.Perm.refl _, rfl, hc⟩⟩
  | takeMultiple ks => exact ⟨False.elim, fun h => absurd rfl (h ks)⟩
  | pop m =>
    rcases hr : ((array sz srt srtS left).pop m).run w a with ⟨o, w', s1⟩
    simp only [attempt, hr, Prod.mk.injEq] at h
    obtain ⟨h1, rfl⟩ := h
    cases o with
    | some _ => simp at h1
    | none =>
      obtain ⟨g1, g2, g3⟩ := arrayPop_esc hl a hI m _ _ _ hr
      exact ⟨False.elim, fun _ => ⟨g3, same _ g1 g3, g2.trans hc⟩⟩
  | push l =>
    rcases hr : ((array sz srt srtS left).push l).run w a with ⟨o, w', s1⟩
    simp only [attempt, hr, Prod.mk.injEq] at h
    obtain ⟨h1, rfl⟩ := h
    cases o with
    | some _ => simp at h1
    | none =>
      obtain ⟨g1, g2, g3⟩ := arrayPush_esc hl a hI l _ _ _ hr
      exact ⟨False.elim, fun _ => ⟨g3, same _ g1 g3, g2.trans hc⟩⟩
  | flush =>
    simp [attempt, array] at h
    exact absurd h.1 (by simp [M.withState, M.set, bind, M.bind, pure, M.pure])

end ArrayOnly

section ProfilerOnly

theorem esc_fst_snd {σ τ α : Type} (m : Unwind.M σ α) (s : σ × τ) :
    (Unwind.M.fst m).Esc s fun s' => s'.2 = s.2 := Unwind.M.esc_fst fun _ _ _ _ => rfl

theorem esc_fst_bind {σ τ α β : Type} {m : Unwind.M σ α} {f : α → Unwind.M (σ × τ) β} {s : σ × τ}
    (h : ∀ a s', s'.2 = s.2 → (f a).Esc s' fun s' => s'.2 = s.2) :
    (Unwind.M.fst m >>= f).Esc s fun s' => s'.2 = s.2 :=
  Unwind.M.esc_bind (esc_fst_snd m s) fun a s' hr => h a s' (res_fst_ok hr).2

/-- **C113 (`Profiler`).** A call that panics is not counted. -/
theorem C113_profiler [LinearOrder K] {left : (W : Type) → Nat → List (K × W) → List (K × W)} (c : Stack K V)
    (_ : (Stack.profiler c).WF) (_ : NoSequential c) (s s' : c.block.State × Stats) (w : Fates) (op : Op K V)
    (h : attempt (stack left (.profiler c)) s w op = (none, s')) : s'.2 = s.2 := by
  replace h : attempt (Unwind.profiler c.block (stack left c)) s w op = (none, s') := h
  have key : ∀ {α β : Type} {m : Unwind.M (c.block.State × Stats) α} {f : α → β},
      m.Esc s (fun s' => s'.2 = s.2) → ((m.run w s).1.map f, (m.run w s).2.2) = (none, s') → s'.2 = s.2 := by
    intro α β m f hm he
    rcases hr : m.run w s with ⟨o, w', s1⟩
    rw [hr] at he
    simp only [Prod.mk.injEq] at he
    obtain ⟨h1, rfl⟩ := he
    cases o with
    | some a => simp at h1
    | none => exact hm _ _ _ hr
  cases op with
  | contains k =>
    refine key ?_ h
    exact esc_fst_bind fun b s1 h1 => Unwind.M.esc_withState (esc_set_bind (Unwind.M.esc_pure _ _ _))
  | take k =>
    refine key ?_ h
    exact Unwind.M.esc_withState (esc_fst_bind fun b s1 h1 => Unwind.M.esc_withState (esc_set_bind (Unwind.M.esc_pure _ _ _)))
  | takeMultiple ks =>
    refine key ?_ h
    exact Unwind.M.esc_withState (esc_fst_bind fun b s1 h1 => Unwind.M.esc_withState
      (esc_ofRes_bind h1 fun _ _ => esc_set_bind (Unwind.M.esc_pure _ _ _)))
  | pop n =>
    refine key ?_ h
    exact Unwind.M.esc_withState (esc_fst_bind fun b s1 h1 => Unwind.M.esc_withState
      (esc_ofRes_bind h1 fun _ _ => esc_set_bind (Unwind.M.esc_pure _ _ _)))
  | push l =>
    refine key ?_ h
    exact Unwind.M.esc_withState (esc_fst_bind fun b s1 h1 => Unwind.M.esc_withState (esc_set_bind (Unwind.M.esc_pure _ _ _)))
  | flush =>
    refine key ?_ h
    exact Unwind.M.esc_withState (esc_fst_bind fun b s1 h1 => Unwind.M.esc_withState (esc_set_bind (Unwind.M.esc_pure _ _ _)))

end ProfilerOnly

/-- **C113 (calls that return, `Inclusive`).** The same for `Inclusive` of such assemblies. -/
theorem C113_returns_inclusive [LinearOrder K] {left : (W : Type) → Nat → List (K × W) → List (K × W)}
    (f b : Stack K (InclCell V)) (s s' : f.block.State × b.block.State) (w : Fates) (op : Op K V) (r : Obs K V)
    (h : attempt (Unwind.inclusive (stack left f) (stack left b)) s w op = (some r, s')) :
    (Byoc.inclusive f.block b.block).observe s op = .ok (r, s') :=
  attempt_returns (inclusive_agrees (stack_agrees left f) (stack_agrees left b)) h

section BTreeOnly

variable [LinearOrder K] [LinearOrder V]

/-- **C113 (calls that return, `BTree`).** The same for `BTree`. -/
theorem C113_returns_btree (sz : K × V → Nat) (s s' : BTree K V) (w : Fates) (op : Op K V) (r : Obs K V)
    (h : attempt (btree sz) s w op = (some r, s')) : (btreeBlock sz).observe s op = .ok (r, s') :=
  attempt_returns (btree_agrees sz) h

/-- The functions of the user return, except in `pop`, and except the first call of `element_size` in `push`. -/
def Mild : Op K V → Fates → Prop
  | .pop _, _ => True
  | .push _, w => w = [] ∨ ∃ n w', w = some n :: w'
  | _, w => w = []

theorem btree_attempt (sz : K × V → Nat) {t : BTree K V} (hI : BTree.Inv sz t) (op : Op K V) (w : Fates)
    (hop : op.Ok (fun l : List (K × V) => (l.map Prod.fst).Nodup)) (hm : Mild op w) :
    let r := attempt (btree sz) t w op
    BTree.Inv sz r.2 ∧ r.2.capacity = t.capacity ∧
      (r.2.map ++ returned [r.1]).Perm (t.map ++ if r.1 = none then [] else op.given) := by
  have hL := BTree.lawful (V := V) sz
  have quiet : (attempt (btree sz) t [] op).1 ≠ none := quiet_returns (btree_agrees sz) hL hI op hop
  have unchanged : ∀ t' : BTree K V, attempt (btree sz) t w op = (none, t') → t' = t := by
    intro t' h
    cases op with
    | pop n =>
      rcases hr : ((btree sz).pop n).run w t with ⟨o, w', s1⟩
      simp only [attempt, hr, Prod.mk.injEq] at h
      obtain ⟨h1, rfl⟩ := h
      cases o with
      | some _ => simp at h1
      | none =>
        obtain ⟨out, s', hs, -⟩ := hL.pop t n hI
        exact btreePop_esc sz n t hs _ _ _ hr
    | push l =>
      rcases hm with rfl | ⟨n, w', rfl⟩
      · rw [h] at quiet; simp at quiet
      · have : attempt (btree sz) t (some n :: w') (.push l) = (none, t) := rfl
        rw [h] at this
        exact (Prod.ext_iff.1 this).2
    | _ => cases hm; rw [h] at quiet; simp at quiet
  rcases ha : attempt (btree sz) t w op with ⟨o, t'⟩
  cases o with
  | some r =>
    obtain ⟨h1, h2, h3⟩ := returns_conserve (btree_agrees sz) hL hI hop ha
    exact ⟨h1, h2, by simpa [returned] using h3⟩
  | none =>
    cases unchanged t' ha
    exact ⟨hI, rfl, by simp [returned]⟩

/-- **C113 (`BTree`).** A `BTree` survives panics of `element_size` in `pop`, and in the first loop of `push`: such calls
have no effect, so that the elements of the other calls are conserved. -/
theorem C113_btree_partial (sz : K × V → Nat) (n : Nat) (l : List (Op K V × Fates))
    (hd : BTreeProps.DistinctBatches (l.map Prod.fst)) (hm : ∀ c ∈ l, Mild c.1 c.2) :
    let r := attempts (btree sz) (BTree.new n) l
    r.2.capacity = n ∧ r.2.totalSize ≤ n ∧ r.2.totalSize = total sz ((btreeBlock sz).contents r.2) ∧
      ((btreeBlock sz).contents r.2 ++ returned r.1).Perm
        ((l.zip r.1).flatMap fun c => if c.2 = none then [] else c.1.1.given) := by
  have key : ∀ (l : List (Op K V × Fates)), BTreeProps.DistinctBatches (l.map Prod.fst) →
      (∀ c ∈ l, Mild c.1 c.2) → ∀ t : BTree K V, BTree.Inv sz t →
      BTree.Inv sz (attempts (btree sz) t l).2 ∧ (attempts (btree sz) t l).2.capacity = t.capacity ∧
        ((attempts (btree sz) t l).2.map ++ returned (attempts (btree sz) t l).1).Perm
          (t.map ++ (l.zip (attempts (btree sz) t l).1).flatMap fun c => if c.2 = none then [] else c.1.1.given) := by
    intro l
    induction l with
    | nil => intro _ _ t h; exact ⟨h, rfl, by simp [attempts, returned]⟩
    | cons c l ih =>
      intro hd hm t h
      obtain ⟨op, w⟩ := c
      obtain ⟨h1, h2, h3⟩ := btree_attempt sz h op w (hd.ok op (by simp)) (hm (op, w) (by simp))
      obtain ⟨g1, g2, g3⟩ := ih (fun l hl => hd l (by simp only [List.map_cons]; exact List.mem_cons_of_mem _ hl))
        (fun c hc => hm c (by simp [hc])) _ h1
      refine ⟨g1, g2.trans h2, ?_⟩
      show ((attempts (btree sz) (attempt (btree sz) t w op).2 l).2.map ++ returned ((attempt (btree sz) t w op).1 ::
        (attempts (btree sz) (attempt (btree sz) t w op).2 l).1)).Perm (t.map ++
          ((if (attempt (btree sz) t w op).1 = none then [] else op.given) ++
          (l.zip (attempts (btree sz) (attempt (btree sz) t w op).2 l).1).flatMap
            fun c => if c.2 = none then [] else c.1.1.given))
      rw [returned_cons]
      perms [h3, g3]
  obtain ⟨h1, h2, h3⟩ := key l hd hm _ (BTree.new_inv sz n)
  have hc : (attempts (btree sz) (BTree.new n : BTree K V) l).2.capacity = n := h2
  refine ⟨hc, h1.2.trans hc.le, h1.1.size, by simpa [BTree.new, Block.contents, btreeBlock, BTree.flush] using h3⟩

end BTreeOnly

/-! ## Where it fails -/

/-- Sorts that are interrupted leave the elements as they were. -/
def asIs {K : Type} : (W : Type) → Nat → List (K × W) → List (K × W) := fun _ _ l => l

/-- **C113, full statement**: the user may go on with any container after panics: assemblies as above (without
`Associative`, whose `pop` panics by itself: C20, and `Sequential`), `BTree`, and an `Inclusive` of two `Array`s after
any calls. -/
def C113_full : Prop :=
  (∀ (t : Stack Nat Nat), t.WF → NoSequential t → t.NoAssociative → ∀ s₀, t.Init s₀ →
    Safe t.block (stack asIs t) s₀) ∧
  (∀ (sz : Nat × Nat → Nat) (n : Nat), Safe (btreeBlock sz) (btree sz) (BTree.new n)) ∧
  (∀ (m n : Nat) (cs : List (Call Nat Nat)) out (s₀ : Array Nat (InclCell Nat) × Array Nat (InclCell Nat)),
    m ≤ n → (Byoc.inclusive (arrayBlock (fun _ => 1) InclusiveProps.cellSorter InclusiveProps.cellSorter)
        (arrayBlock (fun _ => 1) InclusiveProps.cellSorter InclusiveProps.cellSorter)).calls
      (inclusiveGet (arrayGet (fun _ => 1) InclusiveProps.cellSorter InclusiveProps.cellSorter)
        (arrayGet (fun _ => 1) InclusiveProps.cellSorter InclusiveProps.cellSorter))
      (Array.new m, Array.new n) cs = .ok (out, s₀) →
    Safe (Byoc.inclusive (arrayBlock (fun _ => 1) InclusiveProps.cellSorter InclusiveProps.cellSorter)
        (arrayBlock (fun _ => 1) InclusiveProps.cellSorter InclusiveProps.cellSorter))
      (Unwind.inclusive (array (fun _ => 1) InclusiveProps.cellSorter InclusiveProps.cellSorter (asIs _))
        (array (fun _ => 1) InclusiveProps.cellSorter InclusiveProps.cellSorter (asIs _))) s₀)

/-- A `Batch` of two `Array`s of capacity 1. -/
def twoBatches : Stack Nat Nat := .batch (.array (fun _ => 1) natSorter natSorter)

/-- **C113 (`Batch`).** A `push` during which `element_size` panics: the `Array`s it had reached are gone, with what they
stored, and the capacity of the `Batch` is smaller for ever. -/
theorem C113_batch_false :
    ∃ l, twoBatches.block.capacity ([Array.new 1, Array.new 1] : List (Array Nat Nat)) = 2 ∧
      twoBatches.block.capacity (attempts (stack asIs twoBatches) [Array.new 1, Array.new 1] l).2 = 1 ∧
      (attempts (stack asIs twoBatches) [Array.new 1, Array.new 1] l).2 = ([Array.new 1] : List (Array Nat Nat)) :=
  ⟨[(.push [(1, 1)], [some 0])], rfl, rfl, rfl⟩

/-- **C113 (`BTree`, `take`).** A `take` during which `element_size` panics: the element is gone but its size and its entry in
the set remain; the next `pop` panics. -/
theorem C113_btree_take_false :
    ∃ l, (attempts (btree fun _ : Nat × Nat => 1) (BTree.new 2) l).2.totalSize = 2 ∧
      (btreeBlock fun _ : Nat × Nat => 1).contents (attempts (btree fun _ => 1) (BTree.new 2) l).2 = [(1, 1)] ∧
      (attempt (btree fun _ : Nat × Nat => 1) (attempts (btree fun _ => 1) (BTree.new 2) l).2 [] (.pop 1)).1 = none :=
  ⟨[(.push [(1, 1), (2, 2)], []), (.take 2, [some 0])], by decide +kernel, by decide +kernel, rfl⟩

/-- **C113 (`BTree`, `push`).** A `push` during which `element_size` panics late: the container is larger than its capacity,
and the next `push` panics. -/
theorem C113_btree_push_false :
    ∃ l, (attempts (btree fun _ : Nat × Nat => 1) (BTree.new 2) l).2.capacity = 2 ∧
      (attempts (btree fun _ : Nat × Nat => 1) (BTree.new 2) l).2.totalSize = 3 ∧
      (attempt (btree fun _ : Nat × Nat => 1) (attempts (btree fun _ => 1) (BTree.new 2) l).2 [] (.push [(4, 4)])).1 = none :=
  ⟨[(.push [(1, 1), (2, 2), (3, 3)], [none, some 0])], by decide +kernel, by decide +kernel, rfl⟩

/-- An `Inclusive` of an `Array` of capacity 1 and one of capacity 2, in which 10 was pushed with key 1 and read. -/
def readOnce : Array Nat (InclCell Nat) × Array Nat (InclCell Nat) :=
  (⟨1, 1, [(1, ⟨10, false, true⟩)]⟩, ⟨2, 1, [(1, ⟨10, false, true⟩)]⟩)

/-- `readOnce` is reached by a `push` and a `get`. -/
theorem readOnce_reached : (Byoc.inclusive
      (arrayBlock (fun _ => 1) InclusiveProps.cellSorter InclusiveProps.cellSorter)
      (arrayBlock (fun _ => 1) InclusiveProps.cellSorter InclusiveProps.cellSorter)).calls
      (inclusiveGet (arrayGet (fun _ => 1) InclusiveProps.cellSorter InclusiveProps.cellSorter)
        (arrayGet (fun _ => 1) InclusiveProps.cellSorter InclusiveProps.cellSorter))
      (Array.new 1, Array.new 2) [.op (.push [(1, 10)]), .get 1 id] = .ok ([], readOnce) := rfl

/-- **C113 (`Inclusive`).** A `take` during which `eq` panics in the front: the element is no longer in the back, but its copy is
still in the front.  `contains` says yes, `take` finds nothing, and the size is 0. -/
theorem C113_inclusive_false :
    let U := Unwind.inclusive (array (fun _ => 1) InclusiveProps.cellSorter InclusiveProps.cellSorter (asIs _))
      (array (fun _ => 1) InclusiveProps.cellSorter InclusiveProps.cellSorter (asIs _))
    ∃ l, (attempt U (attempts U readOnce l).2 [] (.contains 1)).1 = some (.bool true) ∧
      (attempt U (attempts U readOnce l).2 [] (.take 1)).1 = some (.opt none) ∧
      (Byoc.inclusive (arrayBlock (fun _ => 1) InclusiveProps.cellSorter InclusiveProps.cellSorter)
        (arrayBlock (fun _ => 1) InclusiveProps.cellSorter InclusiveProps.cellSorter)).size (attempts U readOnce l).2 = 0 :=
  ⟨[(.take 1, [none, none, some 0])], rfl, rfl, rfl⟩

/-- **C113, refuted.** -/
theorem C113_false : ¬ C113_full := by
  intro h
  obtain ⟨l, h1, h2, h3⟩ := C113_btree_take_false
  exact (h.2.1 (fun _ => 1) 2 l).2.2.1 _ h3

/-- Each part of the full statement is false. -/
theorem C113_false_each :
    (¬ ∀ (t : Stack Nat Nat), t.WF → NoSequential t → t.NoAssociative → ∀ s₀, t.Init s₀ →
      Safe t.block (stack asIs t) s₀) ∧
    (¬ ∀ (sz : Nat × Nat → Nat) (n : Nat), Safe (btreeBlock sz) (btree sz) (BTree.new n)) ∧
    (¬ Safe (Byoc.inclusive (arrayBlock (fun _ => 1) InclusiveProps.cellSorter InclusiveProps.cellSorter)
        (arrayBlock (fun _ => 1) InclusiveProps.cellSorter InclusiveProps.cellSorter))
      (Unwind.inclusive (array (fun _ => 1) InclusiveProps.cellSorter InclusiveProps.cellSorter (asIs _))
        (array (fun _ => 1) InclusiveProps.cellSorter InclusiveProps.cellSorter (asIs _))) readOnce) := by
  refine ⟨fun h => ?_, fun h => ?_, fun h => ?_⟩
  · obtain ⟨l, h1, h2, -⟩ := C113_batch_false
    have init : ∀ c ∈ ([Array.new 1, Array.new 1] : List (Array Nat Nat)), ∃ n, c = Array.new n := by
      intro c hc; simp at hc; exact ⟨1, hc⟩
    have hs := (h twoBatches trivial trivial trivial ([Array.new 1, Array.new 1] : List (Array Nat Nat))
      init l).2.1
    exact absurd (h2.symm.trans (hs.trans h1)) (by decide)
  · obtain ⟨l, -, -, h3⟩ := C113_btree_take_false
    exact (h (fun _ => 1) 2 l).2.2.1 _ h3
  · obtain ⟨l, h1, h2, -⟩ := C113_inclusive_false
    obtain ⟨b, o, g1, g2, g3⟩ := (h l).2.2.2 1
    cases h1.symm.trans g1
    cases h2.symm.trans g2
    simp at g3

/-! ## The hypotheses are met -/

/-- An `Exclusive` of `Array`s under a `Profiler`. -/
def tiers : Stack Nat Nat :=
  .profiler (.exclusive (.array (fun _ => 1) natSorter natSorter) (.array (fun e => e.2) natSorter natSorter))

example : tiers.WF ∧ NoSequential tiers ∧ NoBatch tiers ∧ tiers.NoAssociative ∧
    tiers.Init (((Array.new 1, Array.new 3), {}) : (Array Nat Nat × Array Nat Nat) × Stats) := by
  refine ⟨⟨?_, trivial, trivial⟩, ⟨trivial, trivial⟩, ⟨trivial, trivial⟩, ⟨trivial, trivial⟩, ⟨⟨1, rfl⟩, ⟨3, rfl⟩⟩, rfl⟩
  simp [Stack.fairness]

/-- A `take` that panics in the front, one that panics in the back, and a `push` that panics in the back. -/
def troubled : List (Op Nat Nat × Fates) :=
  [(.push [(1, 1)], []), (.push [(2, 2)], []), (.take 1, [some 0]), (.take 1, [none, some 0]),
    (.push [(3, 3)], [none, some 0]), (.contains 1, [])]

def emptyTiers : tiers.block.State :=
  (((Array.new 1, Array.new 3), {}) : (Array Nat Nat × Array Nat Nat) × Stats)

/-- Both `take`s and the `push` panic; the element that was moving from the front to the back is lost, and the rest is there. -/
example : (attempts (stack asIs tiers) emptyTiers troubled).1.map Option.isSome = [true, true, false, false, false, true] ∧
    tiers.elems (attempts (stack asIs tiers) emptyTiers troubled).2 = [(3, 3), (1, 1)] := by
  decide +kernel

/-- A `BTree` of which a `pop` panics, then a `push`; both have no effect. -/
example : let l : List (Op Nat Nat × Fates) := [(.push [(1, 1), (2, 2)], []), (.pop 1, [some 0]), (.push [(3, 3)], [some 0]), (.pop 1, [])]
    BTreeProps.DistinctBatches (l.map Prod.fst) ∧ (∀ c ∈ l, Mild c.1 c.2) ∧
      (attempts (btree fun _ => 1) (BTree.new 2) l).1.map Option.isSome = [true, false, false, true] ∧
      (attempts (btree fun _ => 1) (BTree.new 2) l).2.map = [(1, 1)] := by
  refine ⟨?_, ?_, by decide +kernel, by decide +kernel⟩
  · intro l hl
    simp at hl
    rcases hl with rfl | rfl <;> decide
  · intro c hc
    simp at hc
    rcases hc with rfl | rfl | rfl | rfl
    · exact .inl rfl
    · trivial
    · exact .inr ⟨0, [], rfl⟩
    · trivial

end UnwindProps
end Byoc
