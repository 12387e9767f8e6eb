import Verif.Model.Array
import Verif.Model.Combinators
import Verif.Model.Get

/-!
# Stacks of building blocks

A container type assembled from building blocks by nesting, to any depth and in any shape.
-/

namespace Byoc

variable {K V : Type}

/-- A container whose concrete type is one of `B i`, as a `Box<dyn BuildingBlock>`
(src/objsafe/building_block.rs 12-17): calls go to the concrete type. -/
def anyOf {ι : Type} (B : ι → Block K V) : Block K V where
  State := Σ i, (B i).State
  capacity s := (B s.1).capacity s.2
  size s := (B s.1).size s.2
  contains s k := do let (b, c) ← (B s.1).contains s.2 k; return (b, ⟨s.1, c⟩)
  take s k := do let (o, c) ← (B s.1).take s.2 k; return (o, ⟨s.1, c⟩)
  takeMultiple s ks := do let (out, ks, c) ← (B s.1).takeMultiple s.2 ks; return (out, ks, ⟨s.1, c⟩)
  pop s n := do let (out, c) ← (B s.1).pop s.2 n; return (out, ⟨s.1, c⟩)
  push s l := do let (out, c) ← (B s.1).push s.2 l; return (out, ⟨s.1, c⟩)
  flush s := do let (out, c) ← (B s.1).flush s.2; return (out, ⟨s.1, c⟩)

/-- A container type over Arrays. -/
inductive Stack (K : Type) : Type → Type 1 where
  /-- `Array` with an element size function and its sorting routines. -/
  | array {V : Type} (sz : K × V → Nat) (srt srtS : Sorter (K × V)) : Stack K V
  /-- `Exclusive<F, B>` -/
  | exclusive {V : Type} (front back : Stack K V) : Stack K V
  /-- `Batch<C>` -/
  | batch {V : Type} (c : Stack K V) : Stack K V
  /-- `Associative<C, H>` -/
  | associative {V : Type} (hash : K → Nat) (c : Stack K V) : Stack K V
  /-- `FlushStopper<C>` -/
  | flushStopper {V : Type} (c : Stack K V) : Stack K V
  /-- `Sequential<C>` used from one thread -/
  | sequential {V : Type} (c : Stack K V) : Stack K V
  /-- `DynBuildingBlock` over any of several types; with one type, also `SharedPtr`. -/
  | dyn {V : Type} (ι : Type) (c : ι → Stack K V) : Stack K V
  /-- `Decorator<C, D>`; `A` is what an access through a cell does to the decorated value. -/
  | decorator {V : Type} (D : Decoration V) (A : Access D) (c : Stack K D.Item) : Stack K V
  /-- `Profiler<C>` -/
  | profiler {V : Type} (c : Stack K V) : Stack K V

namespace Stack

/-- The building block described. -/
def block [LinearOrder K] : {V : Type} → Stack K V → Block K V
  | _, array sz srt srtS => arrayBlock sz srt srtS
  | _, exclusive f b => Byoc.exclusive f.block b.block
  | _, batch c => Byoc.batch c.block
  | _, associative hash c => Byoc.associative hash c.block
  | _, flushStopper c => Byoc.flushStopper c.block
  | _, sequential c => Byoc.sequential c.block
  | _, dyn _ c => viaDefault (anyOf fun i => (c i).block)
  | _, decorator D _ c => Byoc.decorator D c.block
  | _, profiler c => Byoc.profiler c.block

/-- Every component of a list satisfies `P`. -/
def All {S : Type} (P : S → Prop) (l : List S) : Prop := ∀ x ∈ l, P x

/-- `get`/`get_mut` of a container of any of several types.  (`DynBuildingBlock` does not implement
`Get`; this is for `SharedPtr`, i.e. a single type.) -/
def _root_.Byoc.anyOfGet {ι : Type} {B : ι → Block K V} (G : ∀ i, GetOps (B i)) : GetOps (anyOf B) where
  get s k f := do let (o, c) ← (G s.1).get s.2 k f; return (o, ⟨s.1, c⟩)
  getMut s k f := do let (o, c) ← (G s.1).getMut s.2 k f; return (o, ⟨s.1, c⟩)

/-- `get`/`get_mut` of the building block described. -/
def gets [LinearOrder K] : {V : Type} → (t : Stack K V) → GetOps t.block
  | _, array sz srt srtS => arrayGet sz srt srtS
  | _, exclusive f _ => exclusiveGet f.gets
  | _, batch c => batchGet c.gets
  | _, associative hash c => associativeGet hash c.gets
  | _, flushStopper c => flushStopperGet c.gets
  | _, sequential c => sequentialGet c.gets
  | _, dyn _ c => viaDefaultGet (anyOfGet fun i => (c i).gets)
  | _, decorator _ A c => decoratorGet A c.gets
  | _, profiler c => profilerGet c.gets

/-- Freshly built: every Array is new (of any capacity), a `Batch` has any number of batches, an
`Associative` at least one set, a `Profiler` zeroed statistics. -/
def Init [LinearOrder K] : {V : Type} → (t : Stack K V) → t.block.State → Prop
  | _, array _ _ _, s => ∃ n, s = Array.new n
  | _, exclusive f b, s => Init f s.1 ∧ Init b s.2
  | _, batch c, s => All (Init c) s
  | _, associative _ c, s => List.length (α := c.block.State) s ≠ 0 ∧ All (Init c) s
  | _, flushStopper c, s => Init c s
  | _, sequential c, s => Init c s
  | _, dyn _ c, s => Init (c s.1) s.2
  | _, decorator _ _ c, s => Init c s.1
  | _, profiler c, s => Init c s.1 ∧ s.2 = {}

/-- Every element in some Array of the container. -/
def elems [LinearOrder K] : {V : Type} → (t : Stack K V) → t.block.State → List (K × V)
  | _, array _ _ _, s => Array.values s
  | _, exclusive f b, s => elems f s.1 ++ elems b s.2
  | _, batch c, s => List.flatMap (elems c) s
  | _, associative _ c, s => List.flatMap (elems c) s
  | _, flushStopper c, s => elems c s
  | _, sequential c, s => elems c s
  | _, dyn _ c, s => elems (c s.1) s.2
  | _, decorator D _ c, s => (elems c s.1).map (strip D)
  | _, profiler c, s => elems c s.1

/-- `take_multiple` of the container leaves sorted key lists sorted. -/
def sorted : {V : Type} → Stack K V → Prop
  | _, array _ _ _ => True
  | _, exclusive f b => f.sorted ∧ b.sorted
  | _, batch c => c.sorted
  | _, associative _ _ => False
  | _, flushStopper c => c.sorted
  | _, sequential c => c.sorted
  | _, dyn _ _ => True
  | _, decorator _ _ c => c.sorted
  | _, profiler c => c.sorted


/-- (fair, strict): `fair`: `take_multiple` returns at most one element per requested key; `strict`:
it also removes the keys found from the list. -/
def fairness : {V : Type} → Stack K V → Prop × Prop
  | _, array _ _ _ => (True, True)
  | _, exclusive f b =>
    ((f.fairness.2 ∨ (f.fairness.1 ∧ f.sorted)) ∧ b.fairness.1,
     (f.fairness.2 ∨ (f.fairness.1 ∧ f.sorted)) ∧ (b.fairness.2 ∨ (b.fairness.1 ∧ b.sorted ∧ f.sorted)))
  | _, batch c => (c.fairness.2, c.fairness.2)
  | _, associative _ c => c.fairness
  | _, flushStopper c => c.fairness
  | _, sequential c => c.fairness
  | _, dyn _ _ => (True, False)
  | _, decorator _ _ c => c.fairness
  | _, profiler c => c.fairness

/-- Supported shapes: decorations give back what they wrap, and a `Profiler` is over a container
whose `take_multiple` returns at most one element per requested key (anything but a `Batch` of
dynamic containers). -/
def WF : {V : Type} → Stack K V → Prop
  | _, array _ _ _ => True
  | _, exclusive f b => f.WF ∧ b.WF
  | _, batch c => c.WF
  | _, associative _ c => c.WF
  | _, flushStopper c => c.WF
  | _, sequential c => c.WF
  | _, dyn _ c => ∀ i, (c i).WF
  | _, decorator D _ c => (∀ f v, D.unwrap (D.wrap f v).1 = v) ∧ c.WF
  | _, profiler c => c.fairness.1 ∧ c.WF

/-- No `Associative` inside (its `pop` panics, see C20). -/
def NoAssociative : {V : Type} → Stack K V → Prop
  | _, array _ _ _ => True
  | _, exclusive f b => f.NoAssociative ∧ b.NoAssociative
  | _, batch c => c.NoAssociative
  | _, associative _ _ => False
  | _, flushStopper c => c.NoAssociative
  | _, sequential c => c.NoAssociative
  | _, dyn _ c => ∀ i, (c i).NoAssociative
  | _, decorator _ _ c => c.NoAssociative
  | _, profiler c => c.NoAssociative

/-- No `FlushStopper` inside. -/
def NoFlushStopper : {V : Type} → Stack K V → Prop
  | _, array _ _ _ => True
  | _, exclusive f b => f.NoFlushStopper ∧ b.NoFlushStopper
  | _, batch c => c.NoFlushStopper
  | _, associative _ c => c.NoFlushStopper
  | _, flushStopper _ => False
  | _, sequential c => c.NoFlushStopper
  | _, dyn _ c => ∀ i, (c i).NoFlushStopper
  | _, decorator _ _ c => c.NoFlushStopper
  | _, profiler c => c.NoFlushStopper

/-- The container counts elements: unit sizes, and no `Associative`. -/
def Counting : {V : Type} → Stack K V → Prop
  | _, array sz _ _ => ∀ e, sz e = 1
  | _, exclusive f b => f.Counting ∧ b.Counting
  | _, batch c => c.Counting
  | _, associative _ _ => False
  | _, flushStopper c => c.Counting
  | _, sequential c => c.Counting
  | _, dyn _ c => ∀ i, (c i).Counting
  | _, decorator _ _ c => c.Counting
  | _, profiler c => c.Counting

/-- Shapes on which `get`/`get_mut` are safe: unit sizes, decorated cells show the value written, and
the levels of an `Exclusive` count elements. -/
def GetWF : {V : Type} → Stack K V → Prop
  | _, array sz _ _ => ∀ e, sz e = 1
  | _, exclusive f b => f.Counting ∧ b.Counting ∧ f.GetWF ∧ b.GetWF
  | _, batch c => c.GetWF
  | _, associative _ c => c.GetWF
  | _, flushStopper c => c.GetWF
  | _, sequential c => c.GetWF
  | _, dyn _ c => ∀ i, (c i).GetWF
  | _, decorator D A c => (∀ fac f i, D.unwrap (A.access fac f i) = f (D.unwrap i)) ∧ c.GetWF
  | _, profiler c => c.GetWF

/-- The front of every `Exclusive` has room for something. -/
def FrontRoom [LinearOrder K] : {V : Type} → (t : Stack K V) → t.block.State → Prop
  | _, array _ _ _, _ => True
  | _, exclusive f b, s => 0 < f.block.capacity s.1 ∧ FrontRoom f s.1 ∧ FrontRoom b s.2
  | _, batch c, s => All (FrontRoom c) s
  | _, associative _ c, s => All (FrontRoom c) s
  | _, flushStopper c, s => FrontRoom c s
  | _, sequential c, s => FrontRoom c s
  | _, dyn _ c, s => FrontRoom (c s.1) s.2
  | _, decorator _ _ c, s => FrontRoom c s.1
  | _, profiler c, s => FrontRoom c s.1

end Stack
end Byoc
