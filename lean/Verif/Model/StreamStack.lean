import Verif.Model.Stack
import Verif.Model.Stream
import Verif.Model.Compressed

/-!
# Containers nested over serialised storage

The nestings of Model/Stack.lean with two more leaves: `Stream` (a `ByteStream` over memory streams) and
`Compressed`.  The blocks are the models of the code; this file only says which are put inside which.
-/

namespace Byoc

variable {K V : Type}

/-- A container type over `Array`s, `Stream`s and `Compressed`s (src/builder, src/config: any block can
be given to any other). -/
inductive StoreStack (K : Type) : Type → Type 1 where
  /-- `Array` -/
  | array {V : Type} (sz : K × V → Nat) (srt srtS : Sorter (K × V)) : StoreStack K V
  /-- `Stream`, with the serialisation of the elements and the order of the values. -/
  | stream {V R : Type} (ord : LinearOrder R) (cd : Codec (K × V)) (rank : V → R) : StoreStack K V
  /-- `Compressed`, with the compression, the serialisation and the sorting routines. -/
  | compressed {V : Type} (z : Lz4) (cd : VecCodec (K × V)) (srt srtU : Sorter (K × V)) :
    StoreStack K V
  /-- `Exclusive<F, B>` -/
  | exclusive {V : Type} (front back : StoreStack K V) : StoreStack K V
  /-- `Batch<C>` -/
  | batch {V : Type} (c : StoreStack K V) : StoreStack K V
  /-- `Associative<C, H>` -/
  | associative {V : Type} (hash : K → Nat) (c : StoreStack K V) : StoreStack K V
  /-- `FlushStopper<C>` -/
  | flushStopper {V : Type} (c : StoreStack K V) : StoreStack K V
  /-- `Sequential<C>` used from one thread -/
  | sequential {V : Type} (c : StoreStack K V) : StoreStack K V
  /-- `DynBuildingBlock` over any of several types -/
  | dyn {V : Type} (ι : Type) (c : ι → StoreStack K V) : StoreStack K V
  /-- `Decorator<C, D>` -/
  | decorator {V : Type} (D : Decoration V) (c : StoreStack K D.Item) : StoreStack K V
  /-- `Profiler<C>` -/
  | profiler {V : Type} (c : StoreStack K V) : StoreStack K V

namespace StoreStack

/-- The building block described: src/array/building_block.rs, src/stream/building_block.rs,
src/compression/building_block.rs and the wrappers of Model/Combinators.lean. -/
def block [LinearOrder K] : {V : Type} → StoreStack K V → Block K V
  | _, array sz srt srtS => arrayBlock sz srt srtS
  | _, stream _ cd rank => byteStreamBy cd rank
  | _, compressed z cd srt srtU => Byoc.compressed z cd srt srtU
  | _, exclusive f b => Byoc.exclusive f.block b.block
  | _, batch c => Byoc.batch c.block
  | _, associative hash c => Byoc.associative hash c.block
  | _, flushStopper c => Byoc.flushStopper c.block
  | _, sequential c => Byoc.sequential c.block
  | _, dyn _ c => viaDefault (anyOf fun i => (c i).block)
  | _, decorator D c => Byoc.decorator D c.block
  | _, profiler c => Byoc.profiler c.block

/-- Freshly built: src/array/array.rs `new`, src/stream/stream.rs `new`, src/compression/compression.rs
`new` at the leaves, any number of batches in a `Batch` and at least one set in an `Associative`. -/
def Init [LinearOrder K] : {V : Type} → (t : StoreStack K V) → t.block.State → Prop
  | _, array _ _ _, s => ∃ n, s = Array.new n
  | _, stream _ _ _, s => ∃ n, s = ByteStream.new n
  | _, compressed _ _ _ _, s => ∃ n, s = Compressed.new n
  | _, exclusive f b, s => Init f s.1 ∧ Init b s.2
  | _, batch c, s => ∀ x ∈ (show List c.block.State from s), Init c x
  | _, associative _ c, s => List.length (α := c.block.State) s ≠ 0 ∧
      ∀ x ∈ (show List c.block.State from s), Init c x
  | _, flushStopper c, s => Init c s
  | _, sequential c, s => Init c s
  | _, dyn _ c, s => Init (c s.1) s.2
  | _, decorator _ c, s => Init c s.1
  | _, profiler c, s => Init c s.1 ∧ s.2 = {}

/-- The serialisations give back what they were given and produce at most 2^63 bytes, decorations
unwrap what they wrap. -/
def WF : {V : Type} → StoreStack K V → Prop
  | _, array _ _ _ => True
  | _, stream _ cd _ => ∀ e b, cd.enc e = some b → b.length ≤ 2 ^ 63
  | _, compressed _ cd _ _ => cd.Law
  | _, exclusive f b => f.WF ∧ b.WF
  | _, batch c => c.WF
  | _, associative _ c => c.WF
  | _, flushStopper c => c.WF
  | _, sequential c => c.WF
  | _, dyn _ c => ∀ i, (c i).WF
  | _, decorator D c => (∀ f v, D.unwrap (D.wrap f v).1 = v) ∧ c.WF
  | _, profiler c => c.WF

/-- No `Associative` inside (its `pop` panics, see C20). -/
def NoAssociative : {V : Type} → StoreStack K V → Prop
  | _, exclusive f b => f.NoAssociative ∧ b.NoAssociative
  | _, batch c => c.NoAssociative
  | _, associative _ _ => False
  | _, flushStopper c => c.NoAssociative
  | _, sequential c => c.NoAssociative
  | _, dyn _ c => ∀ i, (c i).NoAssociative
  | _, decorator _ c => c.NoAssociative
  | _, profiler c => c.NoAssociative
  | _, _ => True

/-- No `Stream` inside. -/
def NoStream : {V : Type} → StoreStack K V → Prop
  | _, stream _ _ _ => False
  | _, exclusive f b => f.NoStream ∧ b.NoStream
  | _, batch c => c.NoStream
  | _, associative _ c => c.NoStream
  | _, flushStopper c => c.NoStream
  | _, sequential c => c.NoStream
  | _, dyn _ c => ∀ i, (c i).NoStream
  | _, decorator _ c => c.NoStream
  | _, profiler c => c.NoStream
  | _, _ => True

end StoreStack
end Byoc
