import Verif.Proofs.AccessUnwind
import Verif.Props.UnwindProps

/-!
# C124: panics of the user's functions in accesses

`get`, `get_mut` and the use of their cells call functions of the user (comparisons, hashers, `element_size` when elements
move, and whatever the user does with the cell).  The user who catches the panic still has the container.
-/

set_option linter.unusedSectionVars false

namespace Byoc
namespace AccessUnwindProps

open Unwind ArrayProps UnwindProps

variable {K V : Type}

/-! ## Calls and accesses that may panic -/

/-- What the user does: a call of a method of `BuildingBlock`; `get` and a read of the cell; `get_mut` and a use of the
cell that replaces the value `v` by `f v`, or panics and leaves `half n v`. -/
inductive Act (K V : Type) where
  | call (op : Op K V)
  | get (k : K)
  | getMut (k : K) (f : V → V) (half : Nat → V → V)

/-- What the user sees when no panic. -/
inductive Seen (K V : Type) where
  | obs (o : Obs K V)
  | value (o : Option V)

/-- The elements handed back. -/
def Seen.elements : Seen K V → List (K × V)
  | .obs o => o.elements
  | .value _ => []

/-- The elements given to the container. -/
def Act.given : Act K V → List (K × V)
  | .call op => op.given
  | _ => []

section Acts

variable [LinearOrder K] {left : (W : Type) → Nat → List (K × W) → List (K × W)}

/-- What the user does, when its functions do what `w` says: what is seen (`none`: a panic), and the state of the
container. -/
def act (left : (W : Type) → Nat → List (K × W) → List (K × W)) (t : Stack K V) (s : t.block.State) (w : Fates) :
    Act K V → Option (Seen K V) × t.block.State
  | .call op => let r := attempt (stack left t) s w op; (r.1.map .obs, r.2)
  | .get k => let r := ((stackUsing left t).get k id fun _ => id).run w s; (r.1.map .value, r.2.2)
  | .getMut k f half => let r := ((stackUsing left t).getMut k f half).run w s; (r.1.map .value, r.2.2)

/-- A history in which the user catches the panics and goes on. -/
def acts (left : (W : Type) → Nat → List (K × W) → List (K × W)) (t : Stack K V) (s : t.block.State) :
    List (Act K V × Fates) → List (Option (Seen K V)) × t.block.State
  | [] => ([], s)
  | (a, w) :: l =>
    let r := act left t s w a
    let rs := acts left t r.2 l
    (r.1 :: rs.1, rs.2)

/-- The elements that were handed back. -/
def handed (os : List (Option (Seen K V))) : List (K × V) := os.flatMap fun o => (o.map Seen.elements).getD []

/-- Uses do not change the size of elements. -/
def Act.Ok (t : Stack K V) : Act K V → Prop
  | .call _ => True
  | .get _ => SameSize t id
  | .getMut _ f half => SameSize t f ∧ ∀ n, SameSize t (half n)

/-- Nothing but look at, and use in place, what is stored. -/
def Act.Looks (t : Stack K V) : Act K V → Prop
  | .call op => Lookup op
  | _ => NoExclusive t

/-- What a use that panics does to the elements `l`: nothing, or the value of one element with the key is what the user has
made of it. -/
def Written (k : K) (half : Nat → V → V) (l m : List (K × V)) : Prop :=
  m.Perm l ∨ ∃ n v rest, l.Perm ((k, v) :: rest) ∧ m.Perm ((k, half n v) :: rest)

/-- What the user sees of a use of the value of key `k` that replaces it by its image by `f`. -/
def Replaced (k : K) (f : V → V) (l : List (K × V)) (o : Option V) (m : List (K × V)) : Prop :=
  match o with
  | none => m.Perm l
  | some v => ∃ rest, l.Perm ((k, v) :: rest) ∧ m.Perm ((k, f v) :: rest)

section Law

variable {B : Block K V} {I : B.State → Prop} {ec : B.State → List (K × V)} {q e : Prop} {Pre : (V → V) → Prop}
  {op : K → (V → V) → (Nat → V → V) → M B.State (Option V)} {op0 : B.State → K → (V → V) → Res (Option V × B.State)}

theorem use_returns (hop : UseLaw B I ec q e Pre op op0) {s s' : B.State} {w w' : Fates} {k f half} {o : Option V}
    (h : (op k f half).run w s = (some o, w', s')) : op0 s k f = .ok (o, s') := by
  have := M.res_of_run h
  rwa [hop.agrees] at this

/-- One use: what it does when it returns, and when it panics. -/
theorem use_any (hop : UseLaw B I ec q e Pre op op0) {s : B.State} (hI : I s) (w : Fates) {k f half} (hf : Pre f)
    (hh : ∀ n, Pre (half n)) {r : Option (Option V)} {w' : Fates} {s' : B.State}
    (h : (op k f half).run w s = (r, w', s')) :
    I s' ∧ B.capacity s' ≤ B.capacity s ∧ (q → B.capacity s' = B.capacity s) ∧
      (∀ o, r = some o → Replaced k f (ec s) o (ec s')) ∧
      (r = none → ∃ m lost, Written k half (ec s) m ∧ (ec s' ++ lost).Perm m ∧ (e → lost = [])) ∧
      ∃ lost, ((ec s' ++ lost).map Prod.fst).Perm ((ec s).map Prod.fst) ∧ (r ≠ none → lost = []) ∧ (e → lost = []) := by
  cases r with
  | some o =>
    obtain ⟨h1, h2, h3, m, lost, h4, h5, h6⟩ := hop.returns s k f o s' hI hf (use_returns hop h)
    obtain rfl := h6 trivial
    have h5 : (ec s').Perm m := by simpa using h5
    have h7 : Changed k (o.map fun v => (v, f v)) (ec s) (ec s') := h4.perm (List.Perm.refl _) h5.symm
    refine ⟨h1, h2, fun _ => h3 trivial, fun o' ho => ?_, by simp, [], by simpa using h7.keys, fun _ => rfl, fun _ => rfl⟩
    cases ho
    cases o with
    | none => exact h7
    | some v => exact h7
  | none =>
    obtain ⟨c, hc, h1, h2, h3, m, lost, h4, h5, h6⟩ := hop.escapes s k f half hI hf hh _ _ _ h
    refine ⟨h1, h2, h3, by simp, fun _ => ⟨m, lost, ?_, h5, h6⟩, lost, (h5.map _).trans h4.keys, by simp, h6⟩
    cases c with
    | none => exact .inl h4
    | some x =>
      obtain ⟨n, hn⟩ := hc x rfl
      obtain ⟨rest, g1, g2⟩ := h4
      exact .inr ⟨n, x.1, rest, g1, hn ▸ g2⟩

end Law

/-- What one act keeps. -/
theorem act_kept (hl : ∀ W n l, (left W n l).Perm l) (p : Prop) (t : Stack K V) (hw : t.WF) (hfa : Faithful t)
    (hp : p → NoBatch t) {s : t.block.State} (hI : t.Inv p s) (w : Fates) (a : Act K V) (ha : a.Ok t) :
    t.Inv p (act left t s w a).2 ∧ t.block.capacity (act left t s w a).2 ≤ t.block.capacity s ∧
      (NoBatch t → t.block.capacity (act left t s w a).2 = t.block.capacity s) ∧
      ∃ lost, ((t.elems (act left t s w a).2 ++ handed [(act left t s w a).1] ++ lost).map Prod.fst).Perm
          ((t.elems s ++ a.given).map Prod.fst) ∧
        ((act left t s w a).1 ≠ none → lost = []) ∧ (a.Looks t → lost = []) := by
  obtain ⟨hg, hm⟩ := stack_useLaw hl (p := p) t hw hfa hp
  cases a with
  | call op =>
    obtain ⟨h1, h2, h3, lost, h4, h5, h6, -⟩ := attempt_kept (stack_agrees left t) (t.core p hw) (t.popOk p hw)
      (stack_survives_room hl t hw hp) hI w op
    refine ⟨h1, h2, h3, lost, ?_, ?_, h6⟩
    · have : handed [(act left t s w (.call op)).1] = returned [(attempt (stack left t) s w op).1] := by
        simp only [act, handed, returned]
        cases (attempt (stack left t) s w op).1 <;> rfl
      rw [this]
      exact h4.map _
    · intro hn
      refine h5 fun hx => hn ?_
      simp [act, hx]
  | get k =>
    rcases hr : ((stackUsing left t).get k id fun _ => id).run w s with ⟨r, w', s'⟩
    obtain ⟨h1, h2, h3, -, -, lost, h6, h7, h8⟩ := use_any hg hI w ha (fun _ => ha) hr
    have e1 : act left t s w (.get k) = (r.map .value, s') := by simp only [act, hr]
    rw [e1]
    refine ⟨h1, h2, h3, lost, ?_, ?_, h8⟩
    · have : handed [r.map (Seen.value (K := K) (V := V))] = [] := by cases r <;> rfl
      simpa [this, Act.given] using h6
    · intro hn
      exact h7 fun hx => hn (by simp [hx])
  | getMut k f half =>
    rcases hr : ((stackUsing left t).getMut k f half).run w s with ⟨r, w', s'⟩
    obtain ⟨h1, h2, h3, -, -, lost, h6, h7, h8⟩ := use_any hm hI w ha.1 ha.2 hr
    have e1 : act left t s w (.getMut k f half) = (r.map .value, s') := by simp only [act, hr]
    rw [e1]
    refine ⟨h1, h2, h3, lost, ?_, ?_, h8⟩
    · have : handed [r.map (Seen.value (K := K) (V := V))] = [] := by cases r <;> rfl
      simpa [this, Act.given] using h6
    · intro hn
      exact h7 fun hx => hn (by simp [hx])

theorem handed_cons (o : Option (Seen K V)) (os) : handed (o :: os) = handed [o] ++ handed os := by
  simp [handed]

theorem acts_kept (hl : ∀ W n l, (left W n l).Perm l) (p : Prop) (t : Stack K V) (hw : t.WF) (hfa : Faithful t)
    (hp : p → NoBatch t) : ∀ (l : List (Act K V × Fates)) {s : t.block.State}, t.Inv p s → (∀ c ∈ l, c.1.Ok t) →
    t.Inv p (acts left t s l).2 ∧ t.block.capacity (acts left t s l).2 ≤ t.block.capacity s ∧
      (NoBatch t → t.block.capacity (acts left t s l).2 = t.block.capacity s) ∧
      ∃ lost, ((t.elems (acts left t s l).2 ++ handed (acts left t s l).1 ++ lost).map Prod.fst).Perm
          ((t.elems s ++ l.flatMap fun c => c.1.given).map Prod.fst) ∧
        ((∀ c ∈ l.zip (acts left t s l).1, c.2 = none → c.1.1.Looks t) → lost = []) := by
  intro l
  induction l with
  | nil => intro s hI _; exact ⟨hI, Nat.le_refl _, fun _ => rfl, [], by simp [acts, handed], fun _ => rfl⟩
  | cons c l ih =>
    intro s hI hok
    obtain ⟨a, w⟩ := c
    obtain ⟨h1, h2, h3, lost, h4, h5, h6⟩ := act_kept hl p t hw hfa hp hI w a (hok (a, w) (by simp))
    obtain ⟨g1, g2, g3, losts, g4, g5⟩ := ih h1 fun c hc => hok c (by simp [hc])
    refine ⟨g1, g2.trans h2, fun x => (g3 x).trans (h3 x), losts ++ lost, ?_, fun hz => ?_⟩
    · show ((t.elems (acts left t (act left t s w a).2 l).2 ++
        handed ((act left t s w a).1 :: (acts left t (act left t s w a).2 l).1) ++ (losts ++ lost)).map Prod.fst).Perm
          ((t.elems s ++ (a.given ++ l.flatMap fun c => c.1.given)).map Prod.fst)
      rw [handed_cons]
      simp only [List.map_append] at h4 g4 ⊢
      perms [h4, g4]
    · have z1 := hz ((a, w), (act left t s w a).1) (by simp [acts])
      have e1 : lost = [] := by
        by_cases hn : (act left t s w a).1 = none
        · exact h6 (z1 hn)
        · exact h5 hn
      have e2 : losts = [] := g5 fun c hc => hz c (by simp only [acts, List.zip_cons_cons]; exact List.mem_cons_of_mem _ hc)
      simp [e1, e2]

/-! ## C124 -/

/-- **C124 (histories).** Any assembly of `Array`, `Exclusive`, `Batch`, `Associative`, `FlushStopper`, `Decorator`,
`Profiler` and dynamic containers.  After any history of calls and accesses, some of which panicked because functions of the
user did: the container is within its capacity, the capacity did not grow, and without `Batch` did not change; the keys of
the elements in it or handed back are keys that were pushed, as many times at most; and if only `contains`, `take` and,
without `Exclusive`, accesses panicked, no key is lost. -/
theorem C124_history_partial (hl : ∀ W n l, (left W n l).Perm l) (t : Stack K V) (hw : t.WF) (hfa : Faithful t)
    (_ : NoSequential t) (s : t.block.State) (hi : t.Init s) (l : List (Act K V × Fates)) (hok : ∀ c ∈ l, c.1.Ok t) :
    t.block.size (acts left t s l).2 ≤ t.block.capacity (acts left t s l).2 ∧
    t.block.capacity (acts left t s l).2 ≤ t.block.capacity s ∧
    (NoBatch t → t.block.capacity (acts left t s l).2 = t.block.capacity s) ∧
    ((t.elems (acts left t s l).2 ++ handed (acts left t s l).1).map Prod.fst).Subperm
      ((l.flatMap fun c => c.1.given).map Prod.fst) ∧
    ((∀ c ∈ l.zip (acts left t s l).1, c.2 = none → c.1.1.Looks t) →
      ((t.elems (acts left t s l).2 ++ handed (acts left t s l).1).map Prod.fst).Perm
        ((l.flatMap fun c => c.1.given).map Prod.fst)) := by
  obtain ⟨h1, h2, h3, lost, h4, h5⟩ := acts_kept hl False t hw hfa (fun h => h.elim) l
    (t.init_inv False s hi fun h => h.elim) hok
  rw [t.init_elems s hi, List.nil_append] at h4
  refine ⟨(t.core False hw).bounded _ h1, h2, h3, ?_, fun hz => ?_⟩
  · rw [List.map_append] at h4
    exact (List.sublist_append_left _ _).subperm.trans h4.subperm
  · rw [h5 hz] at h4
    simpa using h4

/-- **C124 (one access).** In the state after any such history, an access of the key `k` that returns is the one of the
model used everywhere else; one that panics leaves every element as it was, but for one value of the key `k`, which is what
the user has made of it, and but for elements that are lost, of which there are none without `Exclusive`. -/
theorem C124_access_partial (hl : ∀ W n l, (left W n l).Perm l) (t : Stack K V) (hw : t.WF) (hfa : Faithful t)
    (_ : NoSequential t) (s₀ : t.block.State) (hi : t.Init s₀) (l : List (Act K V × Fates)) (hok : ∀ c ∈ l, c.1.Ok t)
    (s s' : t.block.State) (hs : s = (acts left t s₀ l).2) (w : Fates) (k : K) (f : V → V) (half : Nat → V → V)
    (hf : SameSize t f) (hh : ∀ n, SameSize t (half n)) (r : Option (Seen K V))
    (h : act left t s w (.getMut k f half) = (r, s')) :
    t.block.size s' ≤ t.block.capacity s' ∧
    (∀ o, r = some (.value o) → t.gets.getMut s k f = .ok (o, s') ∧ Replaced k f (t.elems s) o (t.elems s')) ∧
    (r = none → ∃ m lost, Written k half (t.elems s) m ∧ (t.elems s' ++ lost).Perm m ∧ (NoExclusive t → lost = [])) := by
  subst hs
  obtain ⟨h1, -⟩ := acts_kept hl False t hw hfa (fun h => h.elim) l (t.init_inv False s₀ hi fun h => h.elim) hok
  obtain ⟨-, hm⟩ := stack_useLaw hl (p := False) t hw hfa fun h => h.elim
  rcases hr : ((stackUsing left t).getMut k f half).run w (acts left t s₀ l).2 with ⟨r1, w', s1⟩
  have e1 : act left t (acts left t s₀ l).2 w (.getMut k f half) = (r1.map .value, s1) := by simp only [act, hr]
  rw [e1] at h
  obtain ⟨rfl, rfl⟩ := Prod.mk.inj h
  obtain ⟨g1, -, -, g4, g5, -⟩ := use_any hm h1 w hf hh hr
  refine ⟨(t.core False hw).bounded _ g1, fun o ho => ?_, fun hn => g5 (by cases r1 <;> simp_all)⟩
  cases r1 with
  | none => simp at ho
  | some o1 =>
    simp only [Option.map_some, Option.some.injEq, Seen.value.injEq] at ho
    subst ho
    exact ⟨use_returns hm hr, g4 _ rfl⟩

/-- **C124 (one read).** The same for `get`: a read that panics changes no value. -/
theorem C124_read_partial (hl : ∀ W n l, (left W n l).Perm l) (t : Stack K V) (hw : t.WF) (hfa : Faithful t)
    (_ : NoSequential t) (s₀ : t.block.State) (hi : t.Init s₀) (l : List (Act K V × Fates)) (hok : ∀ c ∈ l, c.1.Ok t)
    (s s' : t.block.State) (hs : s = (acts left t s₀ l).2) (w : Fates) (k : K) (hf : SameSize t id)
    (r : Option (Seen K V)) (h : act left t s w (.get k) = (r, s')) :
    t.block.size s' ≤ t.block.capacity s' ∧
    (∀ o, r = some (.value o) → t.gets.get s k id = .ok (o, s') ∧ (∀ v ∈ o, (k, v) ∈ t.elems s) ∧
      (t.elems s').Perm (t.elems s)) ∧
    (r = none → (t.elems s').Subperm (t.elems s) ∧ (NoExclusive t → (t.elems s').Perm (t.elems s))) := by
  subst hs
  obtain ⟨h1, -⟩ := acts_kept hl False t hw hfa (fun h => h.elim) l (t.init_inv False s₀ hi fun h => h.elim) hok
  obtain ⟨hg, -⟩ := stack_useLaw hl (p := False) t hw hfa fun h => h.elim
  rcases hr : ((stackUsing left t).get k id fun _ => id).run w (acts left t s₀ l).2 with ⟨r1, w', s1⟩
  have e1 : act left t (acts left t s₀ l).2 w (.get k) = (r1.map .value, s1) := by simp only [act, hr]
  rw [e1] at h
  obtain ⟨rfl, rfl⟩ := Prod.mk.inj h
  obtain ⟨g1, -, -, g4, g5, -⟩ := use_any hg h1 w hf (fun _ => hf) hr
  refine ⟨(t.core False hw).bounded _ g1, fun o ho => ?_, fun hn => ?_⟩
  · cases r1 with
    | none => simp at ho
    | some o1 =>
      simp only [Option.map_some, Option.some.injEq, Seen.value.injEq] at ho
      subst ho
      refine ⟨use_returns hg hr, ?_⟩
      have := g4 _ rfl
      cases o1 with
      | none => exact ⟨by simp, this⟩
      | some v =>
        obtain ⟨rest, p1, p2⟩ := this
        refine ⟨fun v' hv => ?_, p2.trans p1.symm⟩
        cases hv
        exact p1.mem_iff.2 (by simp)
  · obtain ⟨m, lost, p1, p2, p3⟩ := g5 (by cases r1 <;> simp_all)
    have hm : m.Perm (t.elems (acts left t s₀ l).2) := by
      rcases p1 with p1 | ⟨n, v, rest, p1, p4⟩
      · exact p1
      · exact p4.trans p1.symm
    refine ⟨(List.sublist_append_left _ lost).subperm.trans (p2.trans hm).subperm, fun he => ?_⟩
    rw [p3 he, List.append_nil] at p2
    exact p2.trans hm

/-- **C124 (afterwards).** Elements of size 1, room in the fronts and no `Batch`: after any such history, the next access
returns when the functions of the user return, and finds a value exactly when there is an element with the key. -/
theorem C124_afterwards_partial (hl : ∀ W n l, (left W n l).Perm l) (t : Stack K V) (hw : t.WF) (hfa : Faithful t)
    (_ : NoSequential t) (hg : t.GetWF) (hb : NoBatch t) (s₀ : t.block.State) (hi : t.Init s₀) (hr : t.FrontRoom s₀)
    (l : List (Act K V × Fates)) (hok : ∀ c ∈ l, c.1.Ok t) (k : K) (f : V → V) (half : Nat → V → V) :
    ∃ o s', act left t (acts left t s₀ l).2 [] (.getMut k f half) = (some (.value o), s') ∧
      (o.isSome ↔ HasKey (t.elems (acts left t s₀ l).2) k) ∧
      Replaced k f (t.elems (acts left t s₀ l).2) o (t.elems s') := by
  obtain ⟨h1, -⟩ := acts_kept hl True t hw hfa (fun _ => hb) l (t.init_inv True s₀ hi fun _ => hr) hok
  obtain ⟨o, s', g1, -, -, g4⟩ := (t.getLawful hw hg).getMut _ k f h1 trivial
  obtain ⟨-, hm⟩ := stack_useLaw hl (p := True) t hw hfa fun _ => hb
  have hrun := M.run_of_res ((hm.agrees _ k f half).trans g1)
  refine ⟨o, s', by simp [act, hrun], ?_, ?_⟩
  · cases o with
    | none => simpa using g4.1
    | some v => obtain ⟨rest, p1, -⟩ := g4; exact ⟨fun _ => ⟨v, p1.mem_iff.2 (by simp)⟩, fun _ => rfl⟩
  · cases o with
    | none => exact g4.2
    | some v => exact g4

end Acts

/-! ## The full statement, which is false -/

/-- **C124, in full: a read that panics loses nothing.** -/
def C124_full : Prop :=
  ∀ (t : Stack Nat Nat), t.WF → Faithful t → NoSequential t → ∀ s₀, t.Init s₀ →
    ∀ (l : List (Act Nat Nat × Fates)), (∀ c ∈ l, c.1.Ok t) → ∀ k w,
      (act asIs t (acts asIs t s₀ l).2 w (.get k)).1 = none →
      (t.elems (act asIs t (acts asIs t s₀ l).2 w (.get k)).2).Perm (t.elems (acts asIs t s₀ l).2)

/-- An `Exclusive` of two `Array`s. -/
def two : Stack Nat Nat :=
  .exclusive (.array (fun _ => 1) natSorter natSorter) (.array (fun _ => 1) natSorter natSorter)

def emptyTwo : two.block.State := ((Array.new 1, Array.new 1) : Array Nat Nat × Array Nat Nat)

/-- Two elements: 2 is in the front and 1 in the back. -/
def filled : List (Act Nat Nat × Fates) := [(.call (.push [(1, 1)]), []), (.call (.push [(2, 2)]), [])]

/-- A read of 1 takes it out of the back; `element_size` panics in the `push` of the front; the element is lost. -/
theorem C124_read_loses :
    let s := (acts asIs two emptyTwo filled).2
    two.elems s = [(2, 2), (1, 1)] ∧
      (act asIs two s [none, none, none, some 0] (.get 1)).1 = none ∧
      two.elems (act asIs two s [none, none, none, some 0] (.get 1)).2 = [(2, 2)] := by
  decide +kernel

/-- One call of a function of the user later the front has evicted the other element to make room, and that one is lost: a read
of 1 can lose 2. -/
theorem C124_swap_loses :
    let s := (acts asIs two emptyTwo filled).2
    two.elems s = [(2, 2), (1, 1)] ∧
      (act asIs two s [none, none, none, none, some 0] (.get 1)).1 = none ∧
      two.elems (act asIs two s [none, none, none, none, some 0] (.get 1)).2 = [(1, 1)] := by
  decide +kernel

/-- **C124, refuted.** -/
theorem C124_false : ¬ C124_full := by
  intro h
  obtain ⟨h1, h2, h3⟩ := C124_read_loses
  have := h two ⟨trivial, trivial⟩ ⟨trivial, trivial⟩ ⟨trivial, trivial⟩ emptyTwo ⟨⟨1, rfl⟩, ⟨1, rfl⟩⟩ filled
    (by intro c hc; simp [filled] at hc; rcases hc with rfl | rfl <;> trivial) 1 _ h2
  rw [h1, h3] at this
  simpa using this.length_eq

/-! ## The hypotheses are met -/

example : tiers.WF ∧ Faithful tiers ∧ NoSequential tiers ∧ NoBatch tiers ∧ two.GetWF ∧ two.FrontRoom emptyTwo ∧
    SameSize tiers (· + 5) ∧ (∀ n : Nat, SameSize tiers (fun _ => n)) := by
  refine ⟨⟨?_, trivial, trivial⟩, ⟨trivial, trivial⟩, ⟨trivial, trivial⟩, ⟨trivial, trivial⟩,
    ⟨fun _ => rfl, fun _ => rfl, fun _ => rfl, fun _ => rfl⟩, ⟨Nat.one_pos, trivial, trivial⟩, fun _ _ => rfl, fun _ _ _ => rfl⟩
  simp [Stack.fairness]

/-- The first use panics in `eq` of the front, the second while the value is changed, the third in `eq` of the back; the last
one returns. -/
def uses : List (Act Nat Nat × Fates) :=
  [(.call (.push [(1, 1)]), []), (.call (.push [(2, 2)]), []),
    (.getMut 2 (· + 5) (fun n _ => n), [some 0]), (.getMut 2 (· + 5) (fun n _ => n), [none, none, some 9]),
    (.get 1, [none, some 0]), (.getMut 1 (· + 5) (fun n _ => n), [])]

/-- The value of 2 is what the user had made of it, and the one of 1 is changed. -/
example : ((acts asIs two emptyTwo uses).1.map Option.isSome) = [true, true, false, false, false, true] ∧
    two.elems (acts asIs two emptyTwo uses).2 = [(1, 6), (2, 9)] ∧
    (∀ c ∈ uses, c.1.Ok two) := by
  refine ⟨by decide +kernel, by decide +kernel, ?_⟩
  intro c hc
  simp [uses] at hc
  rcases hc with rfl | rfl | rfl | rfl | rfl | rfl
  · trivial
  · trivial
  · exact ⟨fun _ _ => rfl, fun _ _ _ => rfl⟩
  · exact ⟨fun _ _ => rfl, fun _ _ _ => rfl⟩
  · exact fun _ _ => rfl
  · exact ⟨fun _ _ => rfl, fun _ _ _ => rfl⟩

end AccessUnwindProps
end Byoc
