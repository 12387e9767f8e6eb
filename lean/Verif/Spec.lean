import Verif.Base

/-!
# Specification of a ByoC container

`Block K V` is the `BuildingBlock<K, V>` trait (src/traits/building_block.rs 19-120) as a record of
pure functions: a method taking `&mut self` returns the new state, a method that can panic returns a
`Res`.  `Lawful` is the contract the trait documents, and that every user of a container relies on:
it mentions only the results of the methods and the multiset of stored elements.
-/

namespace Byoc

/-- src/traits/building_block.rs 19-120: the `BuildingBlock` trait.
`takeMultiple` returns the elements taken and the key vector as the call leaves it (`&mut Vec<K>`).
Simplification: the iterator returned by `flush` is collected into a list. -/
structure Block (K V : Type) : Type 1 where
  State : Type
  /-- lines 37 -/
  capacity : State → Nat
  /-- lines 51 -/
  size : State → Nat
  /-- lines 54.  `&self`, but blocks with interior mutability (`Profiler` statistics, locks) change
  state here, so the state is returned. -/
  contains : State → K → Res (Bool × State)
  /-- lines 62 -/
  take : State → K → Res (Option (K × V) × State)
  /-- lines 80-82 -/
  takeMultiple : State → List K → Res (List (K × V) × List K × State)
  /-- lines 99 -/
  pop : State → Nat → Res (List (K × V) × State)
  /-- lines 110 -/
  push : State → List (K × V) → Res (List (K × V) × State)
  /-- lines 120 -/
  flush : State → Res (List (K × V) × State)

/-- The key `k` is stored in the elements `l`. -/
def HasKey {K V : Type} (l : List (K × V)) (k : K) : Prop := ∃ v, (k, v) ∈ l

theorem hasKey_iff_mem_map {K V : Type} {l : List (K × V)} {k : K} :
    HasKey l k ↔ k ∈ l.map Prod.fst := by
  simp [HasKey]

/-- **The container contract, all methods but `pop`.**  `elems s` is what the container stores in state `s`, `Inv` the states
considered, `Pre` a restriction on the batches pushed (`fun _ => True` for most containers). -/
structure Core {K V : Type} (B : Block K V) (Inv : B.State → Prop)
    (elems : B.State → List (K × V)) (Pre : List (K × V) → Prop) : Prop where
  /-- `size()` never exceeds `capacity()`. -/
  bounded : ∀ s, Inv s → B.size s ≤ B.capacity s
  /-- A container without elements has size 0. -/
  empty_size : ∀ s, Inv s → elems s = [] → B.size s = 0
  /-- `contains(k)` iff an element with key `k` is stored. -/
  contains : ∀ s k, Inv s → ∃ b s', B.contains s k = .ok (b, s') ∧ Inv s' ∧
    B.capacity s' = B.capacity s ∧ B.size s' = B.size s ∧ elems s' = elems s ∧
    (b = true ↔ HasKey (elems s) k)
  /-- `take(k)` takes one element with key `k` out if there is one, and nothing otherwise. -/
  take : ∀ s k, Inv s → ∃ o s', B.take s k = .ok (o, s') ∧ Inv s' ∧
    B.capacity s' = B.capacity s ∧
    match o with
    | none => ¬ HasKey (elems s) k ∧ (elems s').Perm (elems s)
    | some e => e.1 = k ∧ (e :: elems s').Perm (elems s)
  /-- `take_multiple(keys)` takes out elements with requested keys only, at least one for each
  requested key that is stored; the key list left is part of the key list given, and still has
  every key not found. -/
  takeMultiple : ∀ s ks, Inv s → ∃ out ks' s', B.takeMultiple s ks = .ok (out, ks', s') ∧ Inv s' ∧
    B.capacity s' = B.capacity s ∧ (elems s' ++ out).Perm (elems s) ∧
    (∀ e ∈ out, e.1 ∈ ks) ∧ (∀ k ∈ ks, HasKey (elems s) k → HasKey out k) ∧
    ks'.Subperm ks ∧ (∀ k ∈ ks, ¬ HasKey out k → k ∈ ks')
  /-- `push(l)`: old and new elements are either stored or returned. -/
  push : ∀ s l, Inv s → Pre l → ∃ out s', B.push s l = .ok (out, s') ∧ Inv s' ∧
    B.capacity s' = B.capacity s ∧ (elems s' ++ out).Perm (elems s ++ l)
  /-- `flush()` returns what it removes. -/
  flush : ∀ s, Inv s → ∃ out s', B.flush s = .ok (out, s') ∧ Inv s' ∧
    B.capacity s' = B.capacity s ∧ (elems s' ++ out).Perm (elems s)

/-- **The container contract.** -/
structure Lawful {K V : Type} (B : Block K V) (Inv : B.State → Prop)
    (elems : B.State → List (K × V)) (Pre : List (K × V) → Prop) : Prop
    extends Core B Inv elems Pre where
  /-- `pop(n)` frees `n` or empties the container; what it returns is what it removes. -/
  pop : ∀ s n, Inv s → ∃ out s', B.pop s n = .ok (out, s') ∧ Inv s' ∧
    B.capacity s' = B.capacity s ∧ (elems s' ++ out).Perm (elems s) ∧
    (B.size s' + n ≤ B.size s ∨ elems s' = [])

/-- `flush()` empties the container (true of every block except `FlushStopper` and blocks with a
`FlushStopper` inside). -/
def Flushes {K V : Type} (B : Block K V) (Inv : B.State → Prop)
    (elems : B.State → List (K × V)) : Prop :=
  ∀ s, Inv s → ∃ out s', B.flush s = .ok (out, s') ∧ elems s' = [] ∧ out.Perm (elems s)

/-- `take_multiple` consumes the keys it finds: the keys of the elements returned and the keys left
together are part of the keys given.  Blocks using the trait's default `take_multiple` leave the key
list unchanged and do not have this property. -/
def Strict {K V : Type} (B : Block K V) (Inv : B.State → Prop) : Prop :=
  ∀ s ks out ks' s', Inv s → B.takeMultiple s ks = .ok (out, ks', s') →
    (out.map Prod.fst ++ ks').Subperm ks

/-- `take_multiple` returns at most one element per time a key is requested. -/
def Fair {K V : Type} (B : Block K V) (Inv : B.State → Prop) : Prop :=
  ∀ s ks out ks' s', Inv s → B.takeMultiple s ks = .ok (out, ks', s') →
    (out.map Prod.fst).Subperm ks

/-- `take_multiple` leaves a sorted key list sorted. -/
def KeepsSorted {K V : Type} [LinearOrder K] (B : Block K V) (Inv : B.State → Prop) : Prop :=
  ∀ s ks out ks' s', Inv s → ks.Pairwise (· ≤ ·) → B.takeMultiple s ks = .ok (out, ks', s') →
    ks'.Pairwise (· ≤ ·)

theorem Strict.fair {K V : Type} {B : Block K V} {Inv : B.State → Prop} (h : Strict B Inv) :
    Fair B Inv := by
  intro s ks out ks' s' hs he
  exact (List.sublist_append_left _ _).subperm.trans (h s ks out ks' s' hs he)

theorem Strict.mono {K V : Type} {B : Block K V} {I I' : B.State → Prop} (h : Strict B I)
    (hi : ∀ s, I' s → I s) : Strict B I' := fun s ks out ks' s' hs => h s ks out ks' s' (hi s hs)

theorem Fair.mono {K V : Type} {B : Block K V} {I I' : B.State → Prop} (h : Fair B I)
    (hi : ∀ s, I' s → I s) : Fair B I' := fun s ks out ks' s' hs => h s ks out ks' s' (hi s hs)

theorem KeepsSorted.mono {K V : Type} [LinearOrder K] {B : Block K V} {I I' : B.State → Prop}
    (h : KeepsSorted B I) (hi : ∀ s, I' s → I s) : KeepsSorted B I' :=
  fun s ks out ks' s' hs => h s ks out ks' s' (hi s hs)

/-! ## Access through cells -/

/-- src/traits/get.rs 33-37 and 66-71: the `Get` and `GetMut` traits.
A call is modelled together with the life of the cell it returns: `get s k touch` calls `get(&k)`,
dereferences the cell once and drops it; `getMut s k f` calls `get_mut(&k)`, replaces the value `v`
by `f v` through the cell and drops it.  Both return the value found.  `touch` is what *reading* does
to the stored value: nothing (`id`) for plain values, the update of an access time for values
decorated with `Lru` or `Lrfu` (interior mutability). -/
structure GetOps {K V : Type} (B : Block K V) where
  get : B.State → K → (V → V) → Res (Option V × B.State)
  getMut : B.State → K → (V → V) → Res (Option V × B.State)

/-- Accessing key `k` never panics, finds a value exactly when the key is stored, replaces the value
of one element with this key by its image under `f`, and changes no other element. -/
def AccessLaw {K V : Type} (B : Block K V) (op : B.State → K → (V → V) → Res (Option V × B.State))
    (Inv : B.State → Prop) (elems : B.State → List (K × V)) (PreF : (V → V) → Prop) : Prop :=
  ∀ s k f, Inv s → PreF f → ∃ o s', op s k f = .ok (o, s') ∧ Inv s' ∧
    B.capacity s' = B.capacity s ∧
    match o with
    | none => ¬ HasKey (elems s) k ∧ (elems s').Perm (elems s)
    | some v => ∃ rest, (elems s).Perm ((k, v) :: rest) ∧ (elems s').Perm ((k, f v) :: rest)

/-- **The contract of `get` and `get_mut`.**  `PreF` restricts what may be written (e.g. values of the
same size). -/
structure GetLawful {K V : Type} (B : Block K V) (G : GetOps B) (Inv : B.State → Prop)
    (elems : B.State → List (K × V)) (PreF : (V → V) → Prop) : Prop where
  get : AccessLaw B G.get Inv elems PreF
  getMut : AccessLaw B G.getMut Inv elems PreF

theorem GetLawful.mono {K V : Type} {B : Block K V} {G : GetOps B} {Inv elems}
    {PreF PreF' : (V → V) → Prop} (h : GetLawful B G Inv elems PreF) (hp : ∀ f, PreF' f → PreF f) :
    GetLawful B G Inv elems PreF' where
  get s k f hs hf := h.get s k f hs (hp f hf)
  getMut s k f hs hf := h.getMut s k f hs (hp f hf)

/-! ## Histories -/

/-- One call of the trait. -/
inductive Op (K V : Type) where
  | contains (k : K)
  | take (k : K)
  | takeMultiple (ks : List K)
  | pop (n : Nat)
  | push (l : List (K × V))
  | flush

/-- Elements a call hands to the container. -/
def Op.given {K V : Type} : Op K V → List (K × V)
  | .push l => l
  | _ => []

/-- A call restricts its batch to `Pre`. -/
def Op.Ok {K V : Type} (Pre : List (K × V) → Prop) : Op K V → Prop
  | .push l => Pre l
  | _ => True

/-- Perform one call; return the elements handed back and the new state. -/
def Block.step {K V : Type} (B : Block K V) (s : B.State) : Op K V → Res (List (K × V) × B.State)
  | .contains k => do let (_, s') ← B.contains s k; pure ([], s')
  | .take k => do let (o, s') ← B.take s k; pure (o.toList, s')
  | .takeMultiple ks => do let (out, _, s') ← B.takeMultiple s ks; pure (out, s')
  | .pop n => B.pop s n
  | .push l => B.push s l
  | .flush => B.flush s

/-- Perform a sequence of calls; return all the elements handed back and the final state. -/
def Block.run {K V : Type} (B : Block K V) (s : B.State) :
    List (Op K V) → Res (List (K × V) × B.State)
  | [] => .ok ([], s)
  | op :: ops => do
    let (out, s') ← B.step s op
    let (outs, s'') ← B.run s' ops
    pure (out ++ outs, s'')

/-- State `s` can be reached from `s₀` by calls of the trait. -/
def Reachable {K V : Type} (B : Block K V) (s₀ s : B.State) : Prop :=
  ∃ ops out, B.run s₀ ops = .ok (out, s)

/-- The elements `flush()` would return now. -/
def Block.contents {K V : Type} (B : Block K V) (s : B.State) : List (K × V) :=
  match B.flush s with
  | .ok (out, _) => out
  | .panic => []

/-- A call other than `pop`. -/
def Op.NotPop {K V : Type} : Op K V → Prop
  | .pop _ => False
  | _ => True

/-- A weaker claim about fewer batches. -/
theorem Core.mono {K V : Type} {B : Block K V} {Inv elems} {Pre Pre' : List (K × V) → Prop}
    (h : Core B Inv elems Pre) (hp : ∀ l, Pre' l → Pre l) : Core B Inv elems Pre' where
  bounded := h.bounded
  empty_size := h.empty_size
  contains := h.contains
  take := h.take
  takeMultiple := h.takeMultiple
  push s l hs hl := h.push s l hs (hp l hl)
  flush := h.flush

theorem Lawful.mono {K V : Type} {B : Block K V} {Inv elems} {Pre Pre' : List (K × V) → Prop}
    (h : Lawful B Inv elems Pre) (hp : ∀ l, Pre' l → Pre l) : Lawful B Inv elems Pre' where
  toCore := h.toCore.mono hp
  pop := h.pop

/-- Every call keeps the capacity, so a contract holds among the states whose capacity satisfies `q`. -/
theorem Core.withCapacity {K V : Type} {B : Block K V} {Inv elems Pre} (h : Core B Inv elems Pre) (q : Nat → Prop) :
    Core B (fun s => Inv s ∧ q (B.capacity s)) elems Pre where
  bounded s hs := h.bounded s hs.1
  empty_size s hs := h.empty_size s hs.1
  contains s k hs := by
    obtain ⟨b, s', h1, h2, h3, h4⟩ := h.contains s k hs.1
    exact ⟨b, s', h1, ⟨h2, h3 ▸ hs.2⟩, h3, h4⟩
  take s k hs := by
    obtain ⟨b, s', h1, h2, h3, h4⟩ := h.take s k hs.1
    exact ⟨b, s', h1, ⟨h2, h3 ▸ hs.2⟩, h3, h4⟩
  takeMultiple s k hs := by
    obtain ⟨b, k', s', h1, h2, h3, h4⟩ := h.takeMultiple s k hs.1
    exact ⟨b, k', s', h1, ⟨h2, h3 ▸ hs.2⟩, h3, h4⟩
  push s k hs hp := by
    obtain ⟨b, s', h1, h2, h3, h4⟩ := h.push s k hs.1 hp
    exact ⟨b, s', h1, ⟨h2, h3 ▸ hs.2⟩, h3, h4⟩
  flush s hs := by
    obtain ⟨b, s', h1, h2, h3, h4⟩ := h.flush s hs.1
    exact ⟨b, s', h1, ⟨h2, h3 ▸ hs.2⟩, h3, h4⟩

theorem Lawful.withCapacity {K V : Type} {B : Block K V} {Inv elems Pre} (h : Lawful B Inv elems Pre) (q : Nat → Prop) :
    Lawful B (fun s => Inv s ∧ q (B.capacity s)) elems Pre where
  toCore := h.toCore.withCapacity q
  pop s n hs := by
    obtain ⟨b, s', h1, h2, h3, h4⟩ := h.pop s n hs.1
    exact ⟨b, s', h1, ⟨h2, h3 ▸ hs.2⟩, h3, h4⟩

theorem GetLawful.withCapacity {K V : Type} {B : Block K V} {G : GetOps B} {Inv elems PreF}
    (h : GetLawful B G Inv elems PreF) (q : Nat → Prop) :
    GetLawful B G (fun s => Inv s ∧ q (B.capacity s)) elems PreF where
  get s k f hs hf := by
    obtain ⟨b, s', h1, h2, h3, h4⟩ := h.get s k f hs.1 hf
    exact ⟨b, s', h1, ⟨h2, h3 ▸ hs.2⟩, h3, h4⟩
  getMut s k f hs hf := by
    obtain ⟨b, s', h1, h2, h3, h4⟩ := h.getMut s k f hs.1 hf
    exact ⟨b, s', h1, ⟨h2, h3 ▸ hs.2⟩, h3, h4⟩

theorem Core.step {K V : Type} {B : Block K V} {Inv elems Pre}
    (h : Core B Inv elems Pre) (s : B.State) (hs : Inv s) (op : Op K V) (hop : op.Ok Pre)
    (hnp : op.NotPop) :
    ∃ out s', B.step s op = .ok (out, s') ∧ Inv s' ∧ B.capacity s' = B.capacity s ∧
      (elems s' ++ out).Perm (elems s ++ op.given) := by
  cases op with
  | contains k =>
    obtain ⟨b, s', hb, h1, h2, -, h3, -⟩ := h.contains s k hs
    exact ⟨[], s', by simp [Block.step, hb], h1, h2, by simp [Op.given, h3]⟩
  | take k =>
    obtain ⟨o, s', h1, h2, h3, h4⟩ := h.take s k hs
    refine ⟨o.toList, s', by simp [Block.step, h1], h2, h3, ?_⟩
    cases o with
    | none => simpa [Op.given] using h4.2
    | some e => 
      have h5 := h4.2
      simp only [Op.given, Option.toList]
      perms [h5]
  | takeMultiple ks =>
    obtain ⟨out, ks', s', h1, h2, h3, h4, -⟩ := h.takeMultiple s ks hs
    exact ⟨out, s', by simp [Block.step, h1], h2, h3, by simpa [Op.given] using h4⟩
  | pop n => exact hnp.elim
  | push l =>
    obtain ⟨out, s', h1, h2, h3, h4⟩ := h.push s l hs hop
    exact ⟨out, s', by simp [Block.step, h1], h2, h3, by simpa [Op.given] using h4⟩
  | flush =>
    obtain ⟨out, s', h1, h2, h3, h4⟩ := h.flush s hs
    exact ⟨out, s', by simp [Block.step, h1], h2, h3, by simpa [Op.given] using h4⟩

theorem Lawful.step {K V : Type} {B : Block K V} {Inv elems Pre}
    (h : Lawful B Inv elems Pre) (s : B.State) (hs : Inv s) (op : Op K V) (hop : op.Ok Pre) :
    ∃ out s', B.step s op = .ok (out, s') ∧ Inv s' ∧ B.capacity s' = B.capacity s ∧
      (elems s' ++ out).Perm (elems s ++ op.given) := by
  by_cases hp : op.NotPop
  · exact h.toCore.step s hs op hop hp
  · cases op with
    | pop n =>
      obtain ⟨out, s', h1, h2, h3, h4, -⟩ := h.pop s n hs
      exact ⟨out, s', by simp [Block.step, h1], h2, h3, by simpa [Op.given] using h4⟩
    | _ => exact absurd trivial hp

/-- Every history on a lawful container: no panic, bounded, nothing lost or invented. -/
theorem Lawful.run {K V : Type} {B : Block K V} {Inv elems Pre}
    (h : Lawful B Inv elems Pre) (ops : List (Op K V)) (hops : ∀ op ∈ ops, op.Ok Pre) :
    ∀ (s : B.State) (_ : Inv s), ∃ out s', B.run s ops = .ok (out, s') ∧ Inv s' ∧
      B.size s' ≤ B.capacity s' ∧ B.capacity s' = B.capacity s ∧
      (elems s' ++ out).Perm (elems s ++ ops.flatMap Op.given) := by
  induction ops with
  | nil => intro s hs; exact ⟨[], s, rfl, hs, h.bounded s hs, rfl, by simp⟩
  | cons op ops ih =>
    intro s hs
    obtain ⟨out, s1, h1, h2, h3, h4⟩ := h.step s hs op (hops op (by simp))
    obtain ⟨outs, s2, g1, g2, g3, g4, g5⟩ := ih (fun o ho => hops o (by simp [ho])) s1 h2
    refine ⟨out ++ outs, s2, by simp [Block.run, h1, g1], g2, g3, g4.trans h3, ?_⟩
    simp only [List.flatMap_cons]
    perms [h4, g5]

/-- The invariant holds in every reachable state. -/
theorem Lawful.reachable {K V : Type} {B : Block K V} {Inv elems}
    (h : Lawful B Inv elems (fun _ => True)) {s₀ s : B.State} (h₀ : Inv s₀)
    (hr : Reachable B s₀ s) : Inv s := by
  obtain ⟨ops, out, hr⟩ := hr
  obtain ⟨out', s', h1, h2, -⟩ :=
    h.run ops (fun op _ => by cases op <;> exact trivial) s₀ h₀
  rw [hr] at h1
  cases h1
  exact h2

theorem Reachable.refl {K V : Type} (B : Block K V) (s : B.State) : Reachable B s s := ⟨[], [], rfl⟩

/-- The same for containers whose `pop` is not lawful, for histories without `pop`. -/
theorem Core.run {K V : Type} {B : Block K V} {Inv elems Pre}
    (h : Core B Inv elems Pre) (ops : List (Op K V)) (hops : ∀ op ∈ ops, op.Ok Pre ∧ op.NotPop) :
    ∀ (s : B.State) (_ : Inv s), ∃ out s', B.run s ops = .ok (out, s') ∧ Inv s' ∧
      B.size s' ≤ B.capacity s' ∧ B.capacity s' = B.capacity s ∧
      (elems s' ++ out).Perm (elems s ++ ops.flatMap Op.given) := by
  induction ops with
  | nil => intro s hs; exact ⟨[], s, rfl, hs, h.bounded s hs, rfl, by simp⟩
  | cons op ops ih =>
    intro s hs
    obtain ⟨out, s1, h1, h2, h3, h4⟩ :=
      h.step s hs op (hops op (by simp)).1 (hops op (by simp)).2
    obtain ⟨outs, s2, g1, g2, g3, g4, g5⟩ := ih (fun o ho => hops o (by simp [ho])) s1 h2
    refine ⟨out ++ outs, s2, by simp [Block.run, h1, g1], g2, g3, g4.trans h3, ?_⟩
    simp only [List.flatMap_cons]
    perms [h4, g5]

/-! ## What the caller sees -/

/-- The result of a call, as the caller sees it. -/
inductive Obs (K V : Type) where
  | bool (b : Bool)
  | opt (o : Option (K × V))
  | keyed (out : List (K × V)) (keysLeft : List K)
  | many (out : List (K × V))

/-- Perform one call and keep everything the caller sees. -/
def Block.observe {K V : Type} (B : Block K V) (s : B.State) : Op K V → Res (Obs K V × B.State)
  | .contains k => do let (b, s') ← B.contains s k; pure (.bool b, s')
  | .take k => do let (o, s') ← B.take s k; pure (.opt o, s')
  | .takeMultiple ks => do let (out, ks', s') ← B.takeMultiple s ks; pure (.keyed out ks', s')
  | .pop n => do let (out, s') ← B.pop s n; pure (.many out, s')
  | .push l => do let (out, s') ← B.push s l; pure (.many out, s')
  | .flush => do let (out, s') ← B.flush s; pure (.many out, s')

/-- Perform a sequence of calls and keep everything the caller sees. -/
def Block.observes {K V : Type} (B : Block K V) (s : B.State) :
    List (Op K V) → Res (List (Obs K V) × B.State)
  | [] => .ok ([], s)
  | op :: ops => do
    let (r, s') ← B.observe s op
    let (rs, s'') ← B.observes s' ops
    pure (r :: rs, s'')

/-- The elements in a result. -/
def Obs.elements {K V : Type} : Obs K V → List (K × V)
  | .bool _ => []
  | .opt o => o.toList
  | .keyed out _ => out
  | .many out => out

theorem Block.step_eq_observe {K V : Type} (B : Block K V) (s : B.State) (op : Op K V) :
    B.step s op = (do let (r, s') ← B.observe s op; pure (r.elements, s')) := by
  cases op with
  | contains k => simp only [Block.step, Block.observe]; cases B.contains s k <;> rfl
  | take k => simp only [Block.step, Block.observe]; cases B.take s k <;> rfl
  | takeMultiple ks => simp only [Block.step, Block.observe]; cases B.takeMultiple s ks <;> rfl
  | pop n => simp only [Block.step, Block.observe]; cases B.pop s n <;> rfl
  | push l => simp only [Block.step, Block.observe]; cases B.push s l <;> rfl
  | flush => simp only [Block.step, Block.observe]; cases B.flush s <;> rfl

/-! ## Histories with accesses through cells -/

/-- A call of the trait, or an access with the whole life of its cell (see `GetOps`). -/
inductive Call (K V : Type) where
  | op (o : Op K V)
  | get (k : K) (touch : V → V)
  | getMut (k : K) (f : V → V)

/-- Elements a call hands to the container. -/
def Call.given {K V : Type} : Call K V → List (K × V)
  | .op o => o.given
  | _ => []

/-- The change made to values is of the kind allowed. -/
def Call.Ok {K V : Type} (Pre : List (K × V) → Prop) (PreF : (V → V) → Prop) : Call K V → Prop
  | .op o => o.Ok Pre
  | .get _ f => PreF f
  | .getMut _ f => PreF f

/-- Perform one call. -/
def Block.call {K V : Type} (B : Block K V) (G : GetOps B) (s : B.State) :
    Call K V → Res (List (K × V) × B.State)
  | .op o => B.step s o
  | .get k f => do let (_, s') ← G.get s k f; pure ([], s')
  | .getMut k f => do let (_, s') ← G.getMut s k f; pure ([], s')

/-- Perform a sequence of calls. -/
def Block.calls {K V : Type} (B : Block K V) (G : GetOps B) (s : B.State) :
    List (Call K V) → Res (List (K × V) × B.State)
  | [] => .ok ([], s)
  | c :: cs => do
    let (out, s') ← B.call G s c
    let (outs, s'') ← B.calls G s' cs
    pure (out ++ outs, s'')

theorem AccessLaw.keys {K V : Type} {B : Block K V}
    {op : B.State → K → (V → V) → Res (Option V × B.State)} {Inv elems PreF}
    (h : AccessLaw B op Inv elems PreF) (s : B.State) (k : K) (f : V → V) (hs : Inv s) (hf : PreF f) :
    ∃ o s', op s k f = .ok (o, s') ∧ Inv s' ∧ B.capacity s' = B.capacity s ∧
      ((elems s').map Prod.fst).Perm ((elems s).map Prod.fst) := by
  obtain ⟨o, s', h1, h2, h3, h4⟩ := h s k f hs hf
  refine ⟨o, s', h1, h2, h3, ?_⟩
  cases o with
  | none => exact h4.2.map _
  | some v =>
    obtain ⟨r, r1, r2⟩ := h4
    exact (r2.map Prod.fst).trans (by simpa using (r1.map Prod.fst).symm)

/-- Every history of calls and accesses: no panic, bounded, and every key is conserved. -/
theorem Lawful.calls {K V : Type} {B : Block K V} {G : GetOps B} {Inv elems Pre PreF}
    (h : Lawful B Inv elems Pre) (g : GetLawful B G Inv elems PreF)
    (cs : List (Call K V)) (hcs : ∀ c ∈ cs, c.Ok Pre PreF) :
    ∀ (s : B.State) (_ : Inv s), ∃ out s', B.calls G s cs = .ok (out, s') ∧ Inv s' ∧
      B.size s' ≤ B.capacity s' ∧ B.capacity s' = B.capacity s ∧
      ((elems s' ++ out).map Prod.fst).Perm ((elems s ++ cs.flatMap Call.given).map Prod.fst) := by
  induction cs with
  | nil => intro s hs; exact ⟨[], s, rfl, hs, h.bounded s hs, rfl, by simp⟩
  | cons c cs ih =>
    intro s hs
    have key : ∃ out s', B.call G s c = .ok (out, s') ∧ Inv s' ∧ B.capacity s' = B.capacity s ∧
        ((elems s' ++ out).map Prod.fst).Perm ((elems s ++ c.given).map Prod.fst) := by
      have hc := hcs c (by simp)
      cases c with
      | op o =>
        obtain ⟨out, s', h1, h2, h3, h4⟩ := h.step s hs o hc
        exact ⟨out, s', h1, h2, h3, h4.map _⟩
      | get k f =>
        obtain ⟨o, s', h1, h2, h3, h4⟩ := g.get.keys s k f hs hc
        exact ⟨[], s', by simp [Block.call, h1], h2, h3, by simpa [Call.given] using h4⟩
      | getMut k f =>
        obtain ⟨o, s', h1, h2, h3, h4⟩ := g.getMut.keys s k f hs hc
        exact ⟨[], s', by simp [Block.call, h1], h2, h3, by simpa [Call.given] using h4⟩
    obtain ⟨out, s1, h1, h2, h3, h4⟩ := key
    obtain ⟨outs, s2, g1, g2, g3, g4, g5⟩ := ih (fun o ho => hcs o (by simp [ho])) s1 h2
    refine ⟨out ++ outs, s2, by simp [Block.calls, h1, g1], g2, g3, g4.trans h3, ?_⟩
    simp only [List.flatMap_cons, List.map_append] at h4 g5 ⊢
    perms [h4, g5]

/-! ## Histories that never push a key already stored -/

/-- Along the history from `s`, every pushed batch has distinct keys, none of which is stored. -/
def Block.FreshCalls {K V : Type} (B : Block K V) (G : GetOps B) (elems : B.State → List (K × V)) :
    B.State → List (Call K V) → Prop
  | _, [] => True
  | s, c :: cs => (((elems s).map Prod.fst).Nodup → ((elems s ++ c.given).map Prod.fst).Nodup) ∧
      ∀ out s', B.call G s c = .ok (out, s') → B.FreshCalls G elems s' cs

/-- Keys stay distinct. -/
theorem Lawful.fresh {K V : Type} {B : Block K V} {G : GetOps B} {Inv elems Pre PreF}
    (h : Lawful B Inv elems Pre) (g : GetLawful B G Inv elems PreF)
    (cs : List (Call K V)) (hcs : ∀ c ∈ cs, c.Ok Pre PreF) :
    ∀ (s : B.State) (_ : Inv s) (_ : ((elems s).map Prod.fst).Nodup)
      (_ : B.FreshCalls G elems s cs) out s', B.calls G s cs = .ok (out, s') →
      ((elems s').map Prod.fst).Nodup := by
  induction cs with
  | nil => intro s _ hn _ out s' he; cases he; exact hn
  | cons c cs ih =>
    intro s hs hn hf out s' he
    obtain ⟨o1, s1, h1, h2, -, -, h5⟩ := h.calls g [c] (fun x hx => hcs x (by simp_all)) s hs
    have h1' : B.call G s c = .ok (o1, s1) := by
      simp only [Block.calls] at h1
      cases hc : B.call G s c with
      | panic => simp [hc] at h1
      | ok r =>
        obtain ⟨a, b⟩ := r
        simpa [hc] using h1
    simp only [Block.calls, h1', Res.ok_bind] at he
    cases h3 : B.calls G s1 cs with
    | panic => simp [h3] at he
    | ok r =>
      obtain ⟨o2, s2⟩ := r
      simp only [h3, Res.ok_bind, Res.pure_eq, Res.ok.injEq] at he
      cases he
      have hd := h5.nodup_iff.2 (by simpa using hf.1 hn)
      rw [List.map_append] at hd
      exact ih (fun x hx => hcs x (by simp [hx])) s1 h2 (List.nodup_append.1 hd).1 (hf.2 _ _ h1') _ _ h3

/-! ## Containers of distinct keys -/

/-- **The contract of containers meant to hold each key once**: the container contract for histories
that never push a key already stored (nor a key twice in a batch), together with the one of `get` and
`get_mut` (`PreGet`, `PreMut`: what reading, resp. writing, may do to a value). -/
structure MapLawful {K V : Type} (B : Block K V) (G : GetOps B) (Inv : B.State → Prop)
    (elems : B.State → List (K × V)) (PreGet PreMut : (V → V) → Prop) : Prop
    extends Lawful B Inv elems (fun _ => False) where
  distinct : ∀ s, Inv s → ((elems s).map Prod.fst).Nodup
  pushFresh : ∀ s l, Inv s → ((elems s ++ l).map Prod.fst).Nodup →
    ∃ out s', B.push s l = .ok (out, s') ∧ Inv s' ∧
      B.capacity s' = B.capacity s ∧ (elems s' ++ out).Perm (elems s ++ l)
  get : AccessLaw B G.get Inv elems PreGet
  getMut : AccessLaw B G.getMut Inv elems PreMut

/-- Reading and writing are of the kind allowed. -/
def Call.Within {K V : Type} (PreGet PreMut : (V → V) → Prop) : Call K V → Prop
  | .op _ => True
  | .get _ f => PreGet f
  | .getMut _ f => PreMut f

/-- The call may change the value stored with key `k`. -/
def Call.Writes {K V : Type} (k : K) : Call K V → Prop
  | .getMut k' _ => k' = k
  | .get k' f => k' = k ∧ f ≠ id
  | .op _ => False

/-- Every call of a history without duplicate keys: no panic, bounded, every key conserved, and every
element the call does not write to is either still stored or handed back, with the same value. -/
theorem MapLawful.call {K V : Type} {B : Block K V} {G : GetOps B} {Inv elems PreGet PreMut}
    (h : MapLawful B G Inv elems PreGet PreMut) (c : Call K V) (hc : c.Within PreGet PreMut)
    (s : B.State) (hs : Inv s) (hf : ((elems s ++ c.given).map Prod.fst).Nodup) :
    ∃ out s', B.call G s c = .ok (out, s') ∧ Inv s' ∧ B.capacity s' = B.capacity s ∧
      ((elems s' ++ out).map Prod.fst).Perm ((elems s ++ c.given).map Prod.fst) ∧
      ∀ e ∈ elems s ++ c.given, ¬ c.Writes e.1 → e ∈ elems s' ++ out := by
  have access : ∀ (op : B.State → K → (V → V) → Res (Option V × B.State)) (k : K) (f : V → V)
      (o : Option V) (s' : B.State),
      (match o with
        | none => ¬ HasKey (elems s) k ∧ (elems s').Perm (elems s)
        | some v => ∃ rest, (elems s).Perm ((k, v) :: rest) ∧ (elems s').Perm ((k, f v) :: rest)) →
      ((elems s').map Prod.fst).Perm ((elems s).map Prod.fst) ∧
      ∀ e ∈ elems s, ¬ (k = e.1 ∧ f ≠ id) → e ∈ elems s' := by
    intro op k f o s' h4
    cases o with
    | none => exact ⟨h4.2.map _, fun e he _ => h4.2.symm.subset he⟩
    | some v =>
      obtain ⟨r, r1, r2⟩ := h4
      refine ⟨(r2.map Prod.fst).trans (by simpa using (r1.map Prod.fst).symm), fun e he hw => ?_⟩
      rcases List.mem_cons.1 (r1.subset he) with rfl | he'
      · have : f = id := by simpa using hw
        subst this
        exact r2.symm.subset (by simp)
      · exact r2.symm.subset (List.mem_cons_of_mem _ he')
  cases c with
  | op o =>
    have key : ∃ out s', B.step s o = .ok (out, s') ∧ Inv s' ∧ B.capacity s' = B.capacity s ∧
        (elems s' ++ out).Perm (elems s ++ o.given) := by
      cases o with
      | push l => exact h.pushFresh s l hs hf
      | contains k => exact h.toLawful.step s hs (.contains k) trivial
      | take k => exact h.toLawful.step s hs (.take k) trivial
      | takeMultiple ks => exact h.toLawful.step s hs (.takeMultiple ks) trivial
      | pop n => exact h.toLawful.step s hs (.pop n) trivial
      | flush => exact h.toLawful.step s hs .flush trivial
    obtain ⟨out, s', h1, h2, h3, h4⟩ := key
    exact ⟨out, s', h1, h2, h3, h4.map _, fun e he _ => h4.symm.subset he⟩
  | get k f =>
    obtain ⟨o, s', h1, h2, h3, h4⟩ := h.get s k f hs hc
    obtain ⟨a, b⟩ := access G.get k f o s' h4
    exact ⟨[], s', by simp [Block.call, h1], h2, h3, by simpa [Call.given] using a,
      fun e he hw => by simpa using b e (by simpa [Call.given] using he) hw⟩
  | getMut k f =>
    obtain ⟨o, s', h1, h2, h3, h4⟩ := h.getMut s k f hs hc
    obtain ⟨a, b⟩ := access G.getMut k f o s' h4
    exact ⟨[], s', by simp [Block.call, h1], h2, h3, by simpa [Call.given] using a,
      fun e he hw => by
        simpa using b e (by simpa [Call.given] using he) (fun hh => hw hh.1)⟩

/-- The same for histories. -/
theorem MapLawful.calls {K V : Type} {B : Block K V} {G : GetOps B} {Inv elems PreGet PreMut}
    (h : MapLawful B G Inv elems PreGet PreMut) (cs : List (Call K V))
    (hcs : ∀ c ∈ cs, c.Within PreGet PreMut) :
    ∀ (s : B.State) (_ : Inv s) (_ : B.FreshCalls G elems s cs), ∃ out s',
      B.calls G s cs = .ok (out, s') ∧ Inv s' ∧
      B.size s' ≤ B.capacity s' ∧ B.capacity s' = B.capacity s ∧
      ((elems s' ++ out).map Prod.fst).Perm ((elems s ++ cs.flatMap Call.given).map Prod.fst) ∧
      ∀ e ∈ elems s, (∀ c ∈ cs, ¬ c.Writes e.1) → e ∈ elems s' ++ out := by
  induction cs with
  | nil => intro s hs _; exact ⟨[], s, rfl, hs, h.bounded s hs, rfl, by simp, by simp⟩
  | cons c cs ih =>
    intro s hs hf
    obtain ⟨out, s1, h1, h2, h3, h4, h6⟩ := h.call c (hcs c (by simp)) s hs (hf.1 (h.distinct s hs))
    obtain ⟨outs, s2, g1, g2, g3, g4, g5, g6⟩ :=
      ih (fun o ho => hcs o (by simp [ho])) s1 h2 (hf.2 _ _ h1)
    refine ⟨out ++ outs, s2, by simp [Block.calls, h1, g1], g2, g3, g4.trans h3, ?_, ?_⟩
    · simp only [List.flatMap_cons, List.map_append] at h4 g5 ⊢
      perms [h4, g5]
    · intro e he hw
      have := h6 e (by simp [he]) (hw c (by simp))
      rcases List.mem_append.1 this with h7 | h7
      · have := g6 e h7 (fun c hc => hw c (by simp [hc]))
        simp only [List.mem_append] at this ⊢
        rcases this with h | h
        · exact Or.inl h
        · exact Or.inr (Or.inr h)
      · simp only [List.mem_append]; exact Or.inr (Or.inl h7)

end Byoc
