import Verif.Model.Policies

/-!
# Model of a `Decorator` shared by several threads

src/config/config_builder.rs 199-221: a configuration with a decorator whose top container is concurrent
gives a `Decorator` announced as concurrent; `into_concurrent()` (src/objsafe/building_block.rs 82-88)
makes it a `DynConcurrent`, whose clones all call the methods of the one `Decorator`
(src/objsafe/concurrent.rs 60-92), without a lock around them.  `push` decorates the elements one at a
time (src/decorator/building_block.rs 80-93), each with one atomic `fetch_add`
(src/decorator/fifo.rs 72-77; `Counter::now()` for `Lru` and `Lrfu`, src/utils/timestamp.rs 60-64), and
then calls `push` of the decorated container.  `take_multiple` is the default of the trait, a loop of
calls of `take` (src/traits/building_block.rs 80-82): src/objsafe/building_block.rs 12-40 does not
forward it.

The clones made by src/decorator/concurrent.rs 21-35 of a container decorated with `Lru` or `Lrfu` behave
the same but for `take_multiple`, since their factory has no state of its own: the counter is global.

Simplifications: a call on the decorated container is one step (see C35 for `Sequential`), or panics
before doing anything because another thread is in the middle of a call (`clash`, src/utils/shared_ptr.rs
76-121), or, for `push` after a panic, returns nothing (`skip`, src/sequential/building_block.rs 60);
`capacity()` and `size()`, which do not involve the decoration, are left out.
-/

namespace Byoc.Shared

variable {K V : Type}

/-- The calls `Decorator` forwards to the decorated container in one go: those other than `push` and
`take_multiple`; src/decorator/building_block.rs 32-44, 66-72, 104-106. -/
def forward {I : Type} : Op K V → Option (Op K I)
  | .contains k => some (.contains k)
  | .take k => some (.take k)
  | .pop n => some (.pop n)
  | .flush => some .flush
  | .takeMultiple _ => none
  | .push _ => none

/-- Remove the decoration from a result: src/decorator/building_block.rs 43, 70, 91, 105. -/
def bare (D : Decoration V) : Obs K D.Item → Obs K V
  | .bool b => .bool b
  | .opt o => .opt (o.map (strip D))
  | .keyed out ks => .keyed (out.map (strip D)) ks
  | .many out => .many (out.map (strip D))

/-- Where a thread is. -/
inductive Pc (K V I : Type) where
  | idle
  /-- in `push(l)`, `todo` is left to decorate, `done` is decorated -/
  | wrap (l todo : List (K × V)) (done : List (K × I))
  /-- in `take_multiple(ks)`, `todo` is left to take, `out` is taken -/
  | taking (ks todo : List K) (out : List (K × V))
  /-- about to make the call `d` on the decorated container -/
  | ready (o : Op K V) (d : Op K I)
  /-- about to return -/
  | ret (o : Op K V) (r : Obs K V)
  | dead

/-- The decorated container, the factory and the threads. -/
structure State (D : Decoration V) (C : Block K D.Item) where
  cont : C.State
  fac : D.Factory
  threads : List (Pc K V D.Item)

/-- What can be observed: calls, the moment a call acts on the container, returns, panics. -/
inductive Ev (K V : Type) where
  | called (i : Nat) (o : Op K V)
  | executed (i : Nat) (o : Op K V) (r : Obs K V)
  /-- one of the `take` calls of `take_multiple` -/
  | took (i : Nat) (k : K) (r : Option (K × V))
  | returned (i : Nat) (o : Op K V) (r : Obs K V)
  | panicked (i : Nat)
  | silent (i : Nat)

/-- What a thread does: call a method, or do the next step of its call, which may be to find the
decorated container in use (`clash`) or poisoned (`skip`). -/
inductive Act (K V : Type) where
  | call (o : Op K V)
  | go
  | clash
  | skip

/-- The thread uses the decorated container. -/
def Pc.busy {I : Type} : Pc K V I → Bool
  | .idle => false
  | .wrap _ _ _ => false
  | _ => true

/-- The thread panicked. -/
def Pc.isDead {I : Type} : Pc K V I → Bool
  | .dead => true
  | _ => false

/-- `n` threads with a handle each. -/
def State.new {D : Decoration V} {C : Block K D.Item} (c : C.State) (f : D.Factory) (n : Nat) :
    State D C := ⟨c, f, List.replicate n .idle⟩

/-- One step of thread `i`: src/decorator/building_block.rs 15-106. -/
def step {D : Decoration V} {C : Block K D.Item} (s : State D C) (i : Nat) (a : Act K V) :
    Option (State D C × Ev K V) :=
  match s.threads[i]?, a with
  | some .idle, .call (.push l) =>
    some (⟨s.cont, s.fac, s.threads.set i (.wrap l l [])⟩, .called i (.push l))
  | some .idle, .call (.takeMultiple ks) =>
    some (⟨s.cont, s.fac, s.threads.set i (.taking ks ks [])⟩, .called i (.takeMultiple ks))
  | some .idle, .call o =>
    match forward o with
    | some d => some (⟨s.cont, s.fac, s.threads.set i (.ready o d)⟩, .called i o)
    | none => none
  | some (.wrap l ((k, v) :: todo) done), .go =>
    some (⟨s.cont, (D.wrap s.fac v).2, s.threads.set i (.wrap l todo (done ++ [(k, (D.wrap s.fac v).1)]))⟩,
      .silent i)
  | some (.wrap l [] done), .go =>
    some (⟨s.cont, s.fac, s.threads.set i (.ready (.push l) (.push done))⟩, .silent i)
  | some (.taking ks (k :: todo) out), .go =>
    match C.take s.cont k with
    | .panic => some (⟨s.cont, s.fac, s.threads.set i .dead⟩, .panicked i)
    | .ok (r, c) =>
      some (⟨c, s.fac, s.threads.set i (.taking ks todo (out ++ (r.map (strip D)).toList))⟩,
        .took i k (r.map (strip D)))
  | some (.taking ks [] out), .go =>
    some (⟨s.cont, s.fac, s.threads.set i (.ret (.takeMultiple ks) (.keyed out ks))⟩, .silent i)
  | some (.ready o d), .go =>
    match C.observe s.cont d with
    | .panic => some (⟨s.cont, s.fac, s.threads.set i .dead⟩, .panicked i)
    | .ok (r, c) => some (⟨c, s.fac, s.threads.set i (.ret o (bare D r))⟩, .executed i o (bare D r))
  | some (.taking _ (_ :: _) _), .clash =>
    if (s.threads.eraseIdx i).any Pc.busy then
      some (⟨s.cont, s.fac, s.threads.set i .dead⟩, .panicked i)
    else none
  | some (.ready _ _), .clash =>
    if (s.threads.eraseIdx i).any Pc.busy then
      some (⟨s.cont, s.fac, s.threads.set i .dead⟩, .panicked i)
    else none
  | some (.ready (.push l) _), .skip =>
    if s.threads.any Pc.isDead then
      some (⟨s.cont, s.fac, s.threads.set i (.ret (.push l) (.many []))⟩, .silent i)
    else none
  | some (.ret o r), .go => some (⟨s.cont, s.fac, s.threads.set i .idle⟩, .returned i o r)
  | _, _ => none

/-- Runs of any length from state `s₀`. -/
inductive Run {D : Decoration V} {C : Block K D.Item} (s₀ : State D C) : List (Ev K V) → State D C → Prop where
  | nil : Run s₀ [] s₀
  | snoc {l s s' i a e} : Run s₀ l s → step s i a = some (s', e) → Run s₀ (l ++ [e]) s'

end Byoc.Shared
