import Verif.Proofs.ConcDecoratorLin
import Verif.Props.PolicyProps
import Verif.Props.ConfigProps
import Mathlib.Data.List.Permutation

/-!
# C81, C82: a decorated container shared by several threads
-/

namespace Byoc.ConcDecoratorProps

open Shared PolicyProps ArrayProps Policy

variable {K V : Type} [LinearOrder K]

/-- `Sequential` over an `Array`, as a configuration builds it. -/
abbrev sharedArray {I : Type} (sz : K × I → Nat) (srt srtS : Sorter (K × I)) : Block K I :=
  viaDefault (sequential (viaDefault (arrayBlock sz srt srtS)))

/-- Its elements. -/
def stored {I : Type} {sz : K × I → Nat} {srt srtS : Sorter (K × I)}
    (s : (sharedArray sz srt srtS).State) : List (K × I) := s.values

theorem shared_lawful {I : Type} (sz : K × I → Nat) (srt srtS : Sorter (K × I)) :
    Lawful (sharedArray sz srt srtS) (Array.Inv sz) stored (fun _ => True) :=
  viaDefault_lawful (viaDefault_lawful (Array.lawful sz srt srtS))

theorem shared_evicts {I : Type} [LE I] {sz : K × I → Nat} {srt srtS : Sorter (K × I)}
    (hS : ByValue srt) (hS' : ByValue srtS) : Evicts (sharedArray sz srt srtS) (Array.Inv sz) stored :=
  viaDefault_evicts (viaDefault_evicts (array_evicts hS hS'))

/-! ## C81 -/

/-- **C81, `Fifo`.**  In any execution by any number of threads where no element is pushed twice, if a
call of `pop` or `push` evicts `x` and leaves `y` in the container, then `y` was not pushed before `x`:
the `push` of `y` did not return before the `push` of `x` was called. -/
theorem C81_fifo (sz : K × FifoCell V → Nat) (srt srtS : Sorter (K × FifoCell V)) (hS : ByValue srt)
    (hS' : ByValue srtS) (cap n : Nat) {l : List (Ev K V)}
    {s s' : Shared.State (fifo V) (sharedArray sz srt srtS)}
    (h : Run (.new (D := fifo V) (C := sharedArray sz srt srtS) (Array.new cap) (0 : Nat) n) l s)
    (hn : (pushedIn l).Nodup) {i : Nat} {a : Act K V} {o : Op K V} {r : Obs K V}
    (hs : step s i a = some (s', .executed i o r)) (ho : (∃ m, o = .pop m) ∨ ∃ b, o = .push b) :
    ∀ x ∈ r.elements, ∀ y ∈ (stored s'.cont).map (strip (fifo V)), ¬ Earlier l y x :=
  Run.evicts (D := fifo V) (shared_lawful sz srt srtS) (shared_evicts hS hS') fifo_stamps
    (fun a b => fifo_le a b) strictMono_id (Array.new_inv sz cap) rfl h hn hs ho

/-- **C81, `Lru`** (no call of `get` or `get_mut`), with a clock whose readings increase. -/
theorem C81_lru {T : Type} [LinearOrder T] (clock : Nat → T) (hm : StrictMono clock)
    (sz : K × LruCell V T → Nat) (srt srtS : Sorter (K × LruCell V T)) (hS : ByValue srt)
    (hS' : ByValue srtS) (cap n : Nat) {l : List (Ev K V)}
    {s s' : Shared.State (lru V clock) (sharedArray sz srt srtS)}
    (h : Run (.new (D := lru V clock) (C := sharedArray sz srt srtS) (Array.new cap) (0 : Nat) n) l s)
    (hn : (pushedIn l).Nodup) {i : Nat} {a : Act K V} {o : Op K V} {r : Obs K V}
    (hs : step s i a = some (s', .executed i o r)) (ho : (∃ m, o = .pop m) ∨ ∃ b, o = .push b) :
    ∀ x ∈ r.elements, ∀ y ∈ (stored s'.cont).map (strip (lru V clock)), ¬ Earlier l y x :=
  Run.evicts (D := lru V clock) (shared_lawful sz srt srtS) (shared_evicts hS hS') (lru_stamps clock)
    (fun a b => lru_le a b) hm (Array.new_inv sz cap) rfl h hn hs ho

open Config ConfigProps in
/-- A configuration: `Sequential` over an `Array`, with a decorator. -/
def sharedToml (n : Nat) (kind : String) : Toml :=
  .table [("id", .str "SequentialConfig"), ("container", arrayToml n),
    ("decorator", .table [("kind", .str kind)])]

section
open Config ConfigProps

theorem sharedToml_fromToml (w : World) (n : Nat) (kind : String) :
    fromToml w (sharedToml n kind) = .ok ⟨true, sharedToml n kind⟩ := by
  obtain ⟨g, hg⟩ := (C45_accepts_iff w (arrayToml n)).2 (arrayToml_valid w n)
  exact fromToml_iff.2 ⟨_, "SequentialConfig", .sequential (arrayToml n), [g], rfl, rfl,
    parse_iff.2 (.sequential rfl), .cons hg .nil, rfl⟩

theorem sharedToml_build (w : World) (P : Params K V) (n : Nat) (kind : String) :
    build w P (sharedToml n kind) =
      .ok ⟨sharedArray (fun _ => 1) P.srt P.srtS, Array.new n, true⟩ := by
  obtain ⟨g, hg⟩ := (C45_accepts_iff w (arrayToml n)).2 (arrayToml_valid w n)
  have h1 : build w P (arrayToml n) =
      .ok (.new (arrayBlock (fun _ => 1) P.srt P.srtS) (Array.new n) false) :=
    build_iff.2 ⟨_, "ArrayConfig", .array n, [], [], rfl, rfl, parse_iff.2 (.array rfl), .nil, .nil, rfl⟩
  exact build_iff.2 ⟨_, "SequentialConfig", .sequential (arrayToml n), [g], _, rfl, rfl,
    parse_iff.2 (.sequential rfl), .cons hg .nil, .cons h1 .nil, rfl⟩

/-- The container of C81 is the one a configuration gives, which says it can be shared. -/
theorem C81_config (w : World) (P : DParams K V) (n : Nat) :
    (∃ b, builderFromToml w (sharedToml n "Fifo") = .ok b ∧ builderBuild w P b =
      .ok (.new (decorator (fifo V) (sharedArray (fun _ => 1) P.fifo.srt P.fifo.srtS))
        (Array.new n, (0 : Nat)) true)) ∧
    ∃ b, builderFromToml w (sharedToml n "Lru") = .ok b ∧ builderBuild w P b =
      .ok (.new (decorator (lru V P.clock) (sharedArray (fun _ => 1) P.lru.srt P.lru.srtS))
        (Array.new n, (0 : Nat)) true) := by
  constructor
  · refine ⟨⟨⟨true, sharedToml n "Fifo"⟩, .fifo⟩, ?_, ?_⟩
    · have := sharedToml_fromToml w n "Fifo"
      unfold sharedToml at this ⊢
      simp only [builderFromToml, this]
      rfl
    · simp only [builderBuild, sharedToml_build]
      rfl
  · refine ⟨⟨⟨true, sharedToml n "Lru"⟩, .lru⟩, ?_, ?_⟩
    · have := sharedToml_fromToml w n "Lru"
      unfold sharedToml at this ⊢
      simp only [builderFromToml, this]
      rfl
    · simp only [builderBuild, sharedToml_build]
      rfl

end

/-! ### Non-vacuity -/

/-- A `Fifo` decorated `Array` of capacity 2. -/
abbrev demo := sharedArray (fun _ : Nat × FifoCell Nat => 1) fifoSorter fifoSorter

/-- Perform steps. -/
def play (s : Shared.State (fifo Nat) demo) : List (Nat × Act Nat Nat) →
    Option (List (Ev Nat Nat) × Shared.State (fifo Nat) demo)
  | [] => some ([], s)
  | (i, a) :: as => do
    let (s, e) ← step s i a
    let (es, s) ← play s as
    return (e :: es, s)

theorem play_run {s s' : Shared.State (fifo Nat) demo} {as : List (Nat × Act Nat Nat)} {es}
    (h : play s as = some (es, s')) : Run s es s' := by
  have key : ∀ {s₀ : Shared.State (fifo Nat) demo} {l}, Run s₀ l s → Run s₀ (l ++ es) s' := by
    intro s₀ l hl
    induction as generalizing s l es with
    | nil => cases h; simpa using hl
    | cons a as ih =>
      obtain ⟨i, a⟩ := a
      simp only [play] at h
      cases h1 : step s i a with
      | none => rw [h1] at h; cases h
      | some x =>
        rw [h1] at h
        simp only [Option.bind_eq_bind, Option.bind_some] at h
        cases h2 : play x.1 as with
        | none => rw [h2] at h; cases h
        | some y =>
          rw [h2] at h
          cases h
          have := ih h2 (hl.snoc h1)
          simpa using this
  simpa using key .nil

/-- Four pushes by two threads, then `pop`: those pushed last stay. -/
def demoSteps : List (Nat × Act Nat Nat) :=
  [(0, .call (.push [(1, 10)])), (0, .go), (1, .call (.push [(2, 20)])), (1, .go), (1, .go), (1, .go), (1, .go),
   (0, .go), (0, .go), (0, .go), (0, .call (.push [(3, 30)])), (0, .go), (0, .go), (0, .go), (0, .go),
   (1, .call (.pop 1))]

/-- The hypotheses of `C81_fifo` are met: the `pop` evicts `(1, 10)` and keeps `(2, 20)` and `(3, 30)`, and the
`push` of `(1, 10)` returned before the `push` of `(3, 30)` was called. -/
example : ∃ l s s' r, Run (.new (D := fifo Nat) (C := demo) (Array.new 3) (0 : Nat) 2) l s ∧
    (pushedIn l).Nodup ∧ step s 1 .go = some (s', .executed 1 (.pop 1) r) ∧ r.elements = [(1, 10)] ∧
    (stored s'.cont).map (strip (fifo Nat)) = [(3, 30), (2, 20)] ∧ Earlier l (1, 10) (3, 30) :=
  ⟨_, _, _, _, play_run (as := demoSteps) rfl, by decide, rfl, rfl, rfl,
    [.called 0 (.push [(1, 10)]), .silent 0, .called 1 (.push [(2, 20)]), .silent 1, .silent 1,
      .executed 1 (.push [(2, 20)]) (.many []), .returned 1 (.push [(2, 20)]) (.many []), .silent 0,
      .executed 0 (.push [(1, 10)]) (.many [])], [],
    [.silent 0, .silent 0, .executed 0 (.push [(3, 30)]) (.many []), .returned 0 (.push [(3, 30)]) (.many []),
      .called 1 (.pop 1)], 0, 0, [(1, 10)], [(3, 30)], .many [], rfl, by simp, by simp⟩

/-! ## C82 -/

/-- **C82, full statement.**  Whatever the threads do, over a container that never fails: when all calls
returned, they have the results they would have one after the other.  False of the code, see `C82_false`. -/
def C82_full : Prop :=
  ∀ (K V : Type) (_ : LinearOrder K) (D : Decoration V) (C : Block K D.Item) (I : C.State → Prop)
    (ec : C.State → List (K × D.Item)), Lawful C I ec (fun _ => True) →
    (∀ f v, D.unwrap (D.wrap f v).1 = v) → ∀ (c : C.State) (f : D.Factory) (n : Nat), I c → ec c = [] →
    ∀ (l : List (Ev K V)) (s : Shared.State D C), Run (.new c f n) l s → (∀ p ∈ s.threads, p = .idle) →
    Linearizable (viaDefault (decorator D C)) (c, f) l

deriving instance DecidableEq for Op
deriving instance DecidableEq for Obs
deriving instance DecidableEq for Done

/-- The same, checked on all orders. -/
def linearizableB {K V : Type} [DecidableEq K] [DecidableEq V] (B : Block K V) (s₀ : B.State)
    (l : List (Ev K V)) : Bool :=
  (calls l).permutations'.any fun L => decide (L.Pairwise fun a b => ¬ b.stop < a.start) &&
    match B.observes s₀ (L.map Done.op) with
    | .ok (rs, _) => decide (rs = L.map Done.res)
    | .panic => false

theorem linearizableB_iff {K V : Type} [DecidableEq K] [DecidableEq V] {B : Block K V} {s₀ : B.State}
    {l : List (Ev K V)} : linearizableB B s₀ l = true ↔ Linearizable B s₀ l := by
  unfold linearizableB Linearizable
  rw [List.any_eq_true]
  constructor
  · rintro ⟨L, h1, h2⟩
    rw [Bool.and_eq_true] at h2
    refine ⟨L, List.mem_permutations'.1 h1, of_decide_eq_true h2.1, ?_⟩
    have h3 := h2.2
    split at h3
    · next rs s hr => exact ⟨s, by rw [hr, of_decide_eq_true h3]⟩
    · cases h3
  · rintro ⟨L, h1, h2, s, h3⟩
    refine ⟨L, List.mem_permutations'.2 h1, ?_⟩
    rw [h3]
    simpa using h2

/-- Thread 0 decorates `(1, 10)`; thread 1 pushes `(2, 20)` and sees that key 1 is not there; thread 0 pushes;
`pop` evicts `(1, 10)`, the last one pushed. -/
def badSteps : List (Nat × Act Nat Nat) :=
  [(0, .call (.push [(1, 10)])), (0, .go), (1, .call (.push [(2, 20)])), (1, .go), (1, .go), (1, .go), (1, .go),
   (1, .call (.contains 1)), (1, .go), (1, .go), (0, .go), (0, .go), (0, .go), (1, .call (.pop 1)), (1, .go),
   (1, .go)]

/-- The steps lead to a state where all calls returned, and the calls are not linearizable. -/
def refutes (cap n : Nat) (as : List (Nat × Act Nat Nat)) : Bool :=
  match play (.new (D := fifo Nat) (C := demo) (Array.new cap) (0 : Nat) n) as with
  | some (l, s) => (s.threads.all fun | .idle => true | _ => false) &&
      !linearizableB (viaDefault (decorator (fifo Nat) demo)) (Array.new cap, (0 : Nat)) l
  | none => false

theorem refutes_spec {cap n : Nat} {as : List (Nat × Act Nat Nat)} (h : refutes cap n as = true) :
    ∃ l s, play (.new (D := fifo Nat) (C := demo) (Array.new cap) (0 : Nat) n) as = some (l, s) ∧
      Run (.new (D := fifo Nat) (C := demo) (Array.new cap) (0 : Nat) n) l s ∧
      (∀ p ∈ s.threads, p = .idle) ∧
      ¬ Linearizable (viaDefault (decorator (fifo Nat) demo)) (Array.new cap, (0 : Nat)) l := by
  unfold refutes at h
  split at h
  · next l s hp =>
    rw [Bool.and_eq_true, Bool.not_eq_true'] at h
    refine ⟨l, s, hp, play_run hp, ?_, ?_⟩
    · intro p hm
      have := List.all_eq_true.1 h.1 p hm
      cases p <;> first | rfl | cases this
    · exact fun hl => Bool.noConfusion ((linearizableB_iff.2 hl).symm.trans h.2)
  · cases h

/-- `PushesApart`, checked. -/
def pushesApartB (l : List (Ev K V)) : Bool :=
  (List.range l.length).all fun k => match l[k]? with
    | some (.called _ (.push _)) => decide (pushCalls (l.take k) = pushReturns (l.take k))
    | _ => true

omit [LinearOrder K] in
theorem pushesApart_of_B {l : List (Ev K V)} (h : pushesApartB l = true) : PushesApart l := by
  rintro a b i lx rfl
  have := List.all_eq_true.1 h a.length (by simp)
  simpa using this

/-- **C82 is false of the code**, because of overlapping calls of `push`: `(2, 20)` was in the container when
`(1, 10)` was not, and yet `(1, 10)` is evicted first. -/
theorem C82_false : ¬ C82_full := by
  intro h
  obtain ⟨l, s, -, h1, h2, h3⟩ := refutes_spec (show refutes 2 2 badSteps = true by decide +kernel)
  exact h3 (h Nat Nat inferInstance (fifo Nat) demo _ _ (shared_lawful _ _ _) (fun _ _ => rfl) (Array.new 2)
    (0 : Nat) 2 (Array.new_inv _ 2) rfl l s h1 h2)

/-- Thread 0 takes keys 1 and 2 with `take_multiple`; between the two, thread 1 sees that key 1 is gone, and
pushes `(2, 20)`. -/
def tornSteps : List (Nat × Act Nat Nat) :=
  [(1, .call (.push [(1, 10)])), (1, .go), (1, .go), (1, .go), (1, .go), (0, .call (.takeMultiple [1, 2])), (0, .go),
   (1, .call (.contains 1)), (1, .go), (1, .go), (1, .call (.push [(2, 20)])), (1, .go), (1, .go), (1, .go), (1, .go),
   (0, .go), (0, .go), (0, .go)]

/-- `take_multiple` is not atomic, even when calls of `push` do not overlap. -/
theorem C82_take_multiple : ∃ (l : List (Ev Nat Nat)) (s : Shared.State (fifo Nat) demo),
    Run (.new (D := fifo Nat) (C := demo) (Array.new 2) (0 : Nat) 2) l s ∧ (∀ p ∈ s.threads, p = .idle) ∧
    PushesApart l ∧
    ¬ Linearizable (viaDefault (decorator (fifo Nat) demo)) (Array.new 2, (0 : Nat)) l := by
  obtain ⟨l, s, h0, h1, h2, h3⟩ := refutes_spec (show refutes 2 2 tornSteps = true by decide +kernel)
  refine ⟨l, s, h1, h2, pushesApart_of_B ?_, h3⟩
  have h4 : ((play (.new (D := fifo Nat) (C := demo) (Array.new 2) (0 : Nat) 2) tornSteps).map
      fun x => pushesApartB x.1) = some true := by decide +kernel
  rw [h0] at h4
  simpa using h4

omit [LinearOrder K] in
/-- **C82, proved part (1).**  With any decorator over any container, an execution in which no call of `push`
is made while another is running, `take_multiple` is not called and no call panics: when all calls returned,
they have the results they would have one after the other. -/
theorem C82_partial {V : Type} {D : Decoration V} {C : Block K D.Item}
    (hD : ∀ f v, D.unwrap (D.wrap f v).1 = v) {c : C.State} {f : D.Factory} {n : Nat} {l : List (Ev K V)}
    {s : Shared.State D C} (h : Run (.new c f n) l s) (hcalm : ∀ j, .panicked j ∉ l)
    (hnt : ∀ j ks, .called j (.takeMultiple ks) ∉ l) (hap : PushesApart l)
    (hend : ∀ p ∈ s.threads, p = .idle) : Linearizable (viaDefault (decorator D C)) (c, f) l :=
  h.linearizable hD hcalm hnt hap hend

omit [LinearOrder K] in
/-- **C82, proved part (2).**  In any execution over a container that works (whose size is within its
capacity), nothing is invented or given twice, and as long as no call panics nothing is lost: what is stored,
what was given back and what is being pushed are together what was given to `push`.  The capacity stays. -/
theorem C82_conserved_partial {V : Type} {D : Decoration V} {C : Block K D.Item} {I : C.State → Prop}
    {ec : C.State → List (K × D.Item)} (hC : Lawful C I ec (fun _ => True))
    (hD : ∀ f v, D.unwrap (D.wrap f v).1 = v) {c : C.State} (hI : I c) (he : ec c = []) {f : D.Factory}
    {n : Nat} {l : List (Ev K V)} {s : Shared.State D C} (h : Run (.new c f n) l s) :
    ((ec s.cont).map (strip D) ++ (backIn l ++ s.threads.flatMap Pc.flying)).Subperm (pushedIn l) ∧
    ((∀ j, .panicked j ∉ l) →
      ((ec s.cont).map (strip D) ++ (backIn l ++ s.threads.flatMap Pc.flying)).Perm (pushedIn l)) ∧
    C.capacity s.cont = C.capacity c ∧ C.size s.cont ≤ C.capacity c := by
  have hi := h.cinv hC hD hI he
  obtain ⟨lost, h1, h2⟩ := hi.bal
  refine ⟨(List.sublist_append_left _ lost).subperm.trans h1.subperm, ?_, hi.cap, ?_⟩
  · intro hcalm
    have : lost = [] := by
      by_contra hne
      obtain ⟨j, hj⟩ := h2 hne
      exact hcalm j hj
    subst this
    simpa using h1
  · rw [← hi.cap]
    exact hC.bounded _ hi.inv

omit [LinearOrder K] in
/-- **C82, proved part (3).**  A call panics only when it finds another thread in the middle of a call on the decorated
container (and not one that is only decorating the elements of a `push`), or one that panicked. -/
theorem C82_panics_partial {V : Type} {D : Decoration V} {C : Block K D.Item} {I : C.State → Prop}
    {ec : C.State → List (K × D.Item)} (hC : Lawful C I ec (fun _ => True))
    (hD : ∀ f v, D.unwrap (D.wrap f v).1 = v) {c : C.State} (hI : I c) (he : ec c = []) {f : D.Factory}
    {n : Nat} {l : List (Ev K V)} {s s' : Shared.State D C} (h : Run (.new c f n) l s) {i j : Nat}
    {a : Act K V} (hs : step s i a = some (s', .panicked j)) :
    ∃ (k : Nat) (p : Pc K V D.Item), k ≠ i ∧ s.threads[k]? = some p ∧ p ≠ .idle ∧ ∀ l todo done, p ≠ .wrap l todo done := by
  have hi := (h.cinv hC hD hI he).inv
  have other : (s.threads.eraseIdx i).any Pc.busy = true →
      ∃ (k : Nat) (p : Pc K V D.Item), k ≠ i ∧ s.threads[k]? = some p ∧ p ≠ .idle ∧ ∀ l todo done, p ≠ .wrap l todo done := by
    intro hb
    obtain ⟨p, hp, hb⟩ := List.any_eq_true.1 hb
    obtain ⟨k, hk, hg⟩ := List.mem_eraseIdx_iff_getElem?.1 hp
    refine ⟨k, p, hk, hg, ?_, ?_⟩
    · rintro rfl; cases hb
    · rintro l todo done rfl; cases hb
  cases step_sound hs with
  | takePanic ht hp =>
    rename_i ks k todo out
    obtain ⟨r, c, h1, -⟩ := observe_lawful hC hi (.take k)
    simp only [Block.observe, hp] at h1
    cases h1
  | panic ht hp =>
    obtain ⟨r, c, h1, -⟩ := observe_lawful hC hi _
    rw [hp] at h1
    cases h1
  | clashT ht hb => exact other hb
  | clash ht hb => exact other hb

/-- **C82 (overlapping calls).**  Two lookups that overlap: one may panic. -/
theorem C82_clash : ∃ (l : List (Ev Nat Nat)) (s : Shared.State (fifo Nat) demo),
    Run (.new (D := fifo Nat) (C := demo) (Array.new 2) (0 : Nat) 2) l s ∧ .panicked 1 ∈ l ∧
    ∀ j o, .called j o ∈ l → o = .contains 1 :=
  ⟨_, _, play_run (as := [(0, .call (.contains 1)), (1, .call (.contains 1)), (1, .clash)]) rfl, by simp, by
    intro j o h
    simp at h
    exact h.elim And.right And.right⟩

/-- Calls overlap, those of `push` do not. -/
def goodSteps : List (Nat × Act Nat Nat) :=
  [(0, .call (.push [(1, 10), (2, 20)])), (0, .go), (1, .call (.contains 1)), (0, .go), (0, .go), (1, .go), (0, .go),
   (0, .go), (1, .go), (0, .call (.push [(3, 30)])), (1, .call (.pop 1)), (1, .go), (0, .go), (0, .go), (0, .go),
   (1, .go), (0, .go)]

/-- The hypotheses of `C82_partial` are met. -/
example : ∃ (l : List (Ev Nat Nat)) (s : Shared.State (fifo Nat) demo),
    Run (.new (D := fifo Nat) (C := demo) (Array.new 2) (0 : Nat) 2) l s ∧ (∀ p ∈ s.threads, p = .idle) ∧
    PushesApart l ∧ (∀ j, .panicked j ∉ l) ∧ (∀ j ks, .called j (.takeMultiple ks) ∉ l) ∧
    (calls l).map Done.res = [.many [], .many [(1, 10)], .bool false, .many []] :=
  ⟨_, _, play_run (as := goodSteps) rfl, by
    intro p hp
    rcases List.mem_cons.1 hp with rfl | hp
    · rfl
    · exact List.mem_singleton.1 hp, pushesApart_of_B (by decide +kernel), by simp, by simp, rfl⟩

end Byoc.ConcDecoratorProps
