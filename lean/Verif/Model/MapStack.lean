import Verif.Model.Stack
import Verif.Model.BTree
import Verif.Model.Compressed
import Verif.Model.Inclusive
import Verif.Model.Socket

/-!
# Stacks of all building blocks

A container type assembled from any of the building blocks, `BTree`, `Compressed` and `Inclusive`
included, by nesting to any depth and in any shape.  (Model/Stack.lean has the blocks that accept any
batch of elements; here the user pushes keys that are not stored.)
-/

namespace Byoc

variable {K V : Type}

/-- A container type. -/
inductive MapStack (K : Type) : Type → Type 1 where
  /-- `Array` with an element size function and its sorting routines. -/
  | array {V : Type} (sz : K × V → Nat) (srt srtS : Sorter (K × V)) : MapStack K V
  /-- `BTree` with an element size function and the order of its values. -/
  | btree {V : Type} (ord : LinearOrder V) (sz : K × V → Nat) : MapStack K V
  /-- `Compressed` over a stream. -/
  | compressed {V : Type} (z : Lz4) (cd : VecCodec (K × V)) (srt srtU : Sorter (K × V)) : MapStack K V
  /-- `Inclusive<F, B>` -/
  | inclusive {V : Type} (front back : MapStack K (InclCell V)) : MapStack K V
  /-- `Exclusive<F, B>` -/
  | exclusive {V : Type} (front back : MapStack K V) : MapStack K V
  /-- `Batch<C>` -/
  | batch {V : Type} (c : MapStack K V) : MapStack K V
  /-- `Associative<C, H>` -/
  | associative {V : Type} (hash : K → Nat) (c : MapStack K V) : MapStack K V
  /-- `FlushStopper<C>` -/
  | flushStopper {V : Type} (c : MapStack K V) : MapStack K V
  /-- `Sequential<C>` used from one thread -/
  | sequential {V : Type} (c : MapStack K V) : MapStack K V
  /-- `DynBuildingBlock` over any of several types; with one type, also `SharedPtr`. -/
  | dyn {V : Type} (ι : Type) (c : ι → MapStack K V) : MapStack K V
  /-- `Decorator<C, D>`; `A` is what an access through a cell does to the decorated value. -/
  | decorator {V : Type} (D : Decoration V) (A : Access D) (c : MapStack K D.Item) : MapStack K V
  /-- `Profiler<C>` -/
  | profiler {V : Type} (c : MapStack K V) : MapStack K V
  /-- `SocketClient` of a server with this container (src/socket/building_block.rs), nobody else using
  the server's container and the network being prompt (C43). -/
  | remote {V : Type} (c : MapStack K V) : MapStack K V

namespace MapStack

/-- The building block described. -/
def block [LinearOrder K] : {V : Type} → MapStack K V → Block K V
  | _, array sz srt srtS => arrayBlock sz srt srtS
  | _, btree ord sz => @btreeBlock _ _ _ ord sz
  | _, compressed z cd srt srtU => Byoc.compressed z cd srt srtU
  | _, inclusive f b => Byoc.inclusive f.block b.block
  | _, exclusive f b => Byoc.exclusive f.block b.block
  | _, batch c => Byoc.batch c.block
  | _, associative hash c => Byoc.associative hash c.block
  | _, flushStopper c => Byoc.flushStopper c.block
  | _, sequential c => Byoc.sequential c.block
  | _, dyn _ c => viaDefault (anyOf fun i => (c i).block)
  | _, decorator D _ c => Byoc.decorator D c.block
  | _, profiler c => Byoc.profiler c.block
  | _, remote c => Socket.remote c.block

/-- `get` and `get_mut` of the building block described.  `SocketClient` does not implement `Get`: a
program accessing one does not compile; the model panics. -/
def gets [LinearOrder K] : {V : Type} → (t : MapStack K V) → GetOps t.block
  | _, array sz srt srtS => arrayGet sz srt srtS
  | _, btree ord sz => @btreeGet _ _ _ ord sz
  | _, compressed z cd srt srtU => compressedGet z cd srt srtU
  | _, inclusive f b => inclusiveGet f.gets b.gets
  | _, exclusive f _ => exclusiveGet f.gets
  | _, batch c => batchGet c.gets
  | _, associative hash c => associativeGet hash c.gets
  | _, flushStopper c => flushStopperGet c.gets
  | _, sequential c => sequentialGet c.gets
  | _, dyn _ c => viaDefaultGet (anyOfGet fun i => (c i).gets)
  | _, decorator _ A c => decoratorGet A c.gets
  | _, profiler c => profilerGet c.gets
  | _, remote _ => ⟨fun _ _ _ => .panic, fun _ _ _ => .panic⟩

/-- Freshly built: every leaf is new (of any capacity), a `Batch` has any number of batches, an
`Associative` at least one set, a `Profiler` zeroed statistics. -/
def Init [LinearOrder K] : {V : Type} → (t : MapStack K V) → t.block.State → Prop
  | _, array _ _ _, s => ∃ n, s = Array.new n
  | _, btree _ _, s => ∃ n, s = BTree.new n
  | _, compressed _ _ _ _, s => ∃ n, s = Compressed.new n
  | _, inclusive f b, s => Init f s.1 ∧ Init b s.2
  | _, exclusive f b, s => Init f s.1 ∧ Init b s.2
  | _, batch c, s => Stack.All (Init c) s
  | _, associative _ c, s => List.length (α := c.block.State) s ≠ 0 ∧ Stack.All (Init c) s
  | _, flushStopper c, s => Init c s
  | _, sequential c, s => Init c s
  | _, dyn _ c, s => Init (c s.1) s.2
  | _, decorator _ _ c, s => Init c s.1
  | _, profiler c, s => Init c s.1 ∧ s.2 = {}
  | _, remote c, s => Init c s

/-- `push(vec![])` hands nothing back. -/
def Quiet : {V : Type} → MapStack K V → Prop
  | _, array _ _ _ => True
  | _, btree _ sz => ∀ e, 0 < sz e
  | _, compressed _ _ _ _ => False
  | _, inclusive _ b => b.Quiet
  | _, exclusive f b => f.Quiet ∧ b.Quiet
  | _, batch _ => True
  | _, associative _ c => c.Quiet
  | _, flushStopper c => c.Quiet
  | _, sequential c => c.Quiet
  | _, dyn _ c => ∀ i, (c i).Quiet
  | _, decorator _ _ c => c.Quiet
  | _, profiler c => c.Quiet
  | _, remote c => c.Quiet

/-- Decorations give back what they wrap and serialised elements are read back. -/
def Sound : {V : Type} → MapStack K V → Prop
  | _, array _ _ _ => True
  | _, btree _ _ => True
  | _, compressed _ cd _ _ => cd.Law
  | _, inclusive f b => f.Sound ∧ b.Sound
  | _, exclusive f b => f.Sound ∧ b.Sound
  | _, batch c => c.Sound
  | _, associative _ c => c.Sound
  | _, flushStopper c => c.Sound
  | _, sequential c => c.Sound
  | _, dyn _ c => ∀ i, (c i).Sound
  | _, decorator D _ c => (∀ f v, D.unwrap (D.wrap f v).1 = v) ∧ c.Sound
  | _, profiler c => c.Sound
  | _, remote c => c.Sound

/-- Supported shapes: decorations give back what they wrap, serialised elements are read back, and
the back of an `Inclusive` hands nothing back for an empty batch. -/
def WF : {V : Type} → MapStack K V → Prop
  | _, array _ _ _ => True
  | _, btree _ _ => True
  | _, compressed _ cd _ _ => cd.Law
  | _, inclusive f b => f.WF ∧ b.WF ∧ b.Quiet
  | _, exclusive f b => f.WF ∧ b.WF
  | _, batch c => c.WF
  | _, associative _ c => c.WF
  | _, flushStopper c => c.WF
  | _, sequential c => c.WF
  | _, dyn _ c => ∀ i, (c i).WF
  | _, decorator D _ c => (∀ f v, D.unwrap (D.wrap f v).1 = v) ∧ c.WF
  | _, profiler c => c.WF
  | _, remote c => c.WF

/-- No `Associative` inside (its `pop` panics, see C20), except in front of an `Inclusive`. -/
def NoAssociative : {V : Type} → MapStack K V → Prop
  | _, array _ _ _ => True
  | _, btree _ _ => True
  | _, compressed _ _ _ _ => True
  | _, inclusive _ b => b.NoAssociative
  | _, exclusive f b => f.NoAssociative ∧ b.NoAssociative
  | _, batch c => c.NoAssociative
  | _, associative _ _ => False
  | _, flushStopper c => c.NoAssociative
  | _, sequential c => c.NoAssociative
  | _, dyn _ c => ∀ i, (c i).NoAssociative
  | _, decorator _ _ c => c.NoAssociative
  | _, profiler c => c.NoAssociative
  | _, remote c => c.NoAssociative

/-- No `FlushStopper` inside, except in front of an `Inclusive`. -/
def NoFlushStopper : {V : Type} → MapStack K V → Prop
  | _, array _ _ _ => True
  | _, btree _ _ => True
  | _, compressed _ _ _ _ => True
  | _, inclusive _ b => b.NoFlushStopper
  | _, exclusive f b => f.NoFlushStopper ∧ b.NoFlushStopper
  | _, batch c => c.NoFlushStopper
  | _, associative _ c => c.NoFlushStopper
  | _, flushStopper _ => False
  | _, sequential c => c.NoFlushStopper
  | _, dyn _ c => ∀ i, (c i).NoFlushStopper
  | _, decorator _ _ c => c.NoFlushStopper
  | _, profiler c => c.NoFlushStopper
  | _, remote c => c.NoFlushStopper

/-! ## Accesses -/

/-- All elements take the same room, in every leaf that elements go through (what a `BTree` holds takes
some room). -/
def Even : {V : Type} → MapStack K V → Prop
  | _, array sz _ _ => ∃ n, ∀ e, sz e = n
  | _, btree _ sz => ∃ n, 0 < n ∧ ∀ e, sz e = n
  | _, compressed _ cd _ _ => ∃ n, ∀ e, ∃ b, cd.enc e = some b ∧ b.length = n
  | _, inclusive _ b => b.Even
  | _, exclusive f b => f.Even ∧ b.Even
  | _, batch c => c.Even
  | _, associative _ c => c.Even
  | _, flushStopper c => c.Even
  | _, sequential c => c.Even
  | _, dyn _ c => ∀ i, (c i).Even
  | _, decorator _ _ c => c.Even
  | _, profiler c => c.Even
  | _, remote c => c.Even

/-- Shapes supporting `get` and `get_mut`: not an `Inclusive` (see C15) nor a `SocketClient` (which has no
`get`), except in the back of an `Exclusive`; decorators that give access to the value decorated; under an
`Exclusive`, elements of one size, and no `Associative` in its back. -/
def Gettable : {V : Type} → MapStack K V → Prop
  | _, array _ _ _ => True
  | _, btree _ sz => ∀ e, 0 < sz e
  | _, compressed _ _ _ _ => True
  | _, inclusive _ _ => False
  | _, exclusive f b => f.Gettable ∧ f.Even ∧ b.Even ∧ b.NoAssociative
  | _, batch c => c.Gettable
  | _, associative _ c => c.Gettable
  | _, flushStopper c => c.Gettable
  | _, sequential c => c.Gettable
  | _, dyn _ c => ∀ i, (c i).Gettable
  | _, decorator D A c => (∀ fac f i, D.unwrap (A.access fac f i) = f (D.unwrap i)) ∧ c.Gettable
  | _, profiler c => c.Gettable
  | _, remote _ => False

/-- Changes a cell may make to a value: they keep the size of an element (for an element of a
`Compressed` that is written, they do not make it longer). -/
def Allows (write : Bool) : {V : Type} → MapStack K V → (V → V) → Prop
  | _, array sz _ _, f => ∀ k v, sz (k, f v) = sz (k, v)
  | _, btree _ sz, f => ∀ k v, sz (k, f v) = sz (k, v)
  | _, compressed _ cd _ _, f => write = true → ∀ k v, cd.enc (k, v) ≠ none →
      cd.enc (k, f v) ≠ none ∧ cd.size (k, f v) ≤ cd.size (k, v)
  | _, inclusive _ _, _ => False
  | _, exclusive t _, f => Allows write t f
  | _, batch c, f => Allows write c f
  | _, associative _ c, f => Allows write c f
  | _, flushStopper c, f => Allows write c f
  | _, sequential c, f => Allows write c f
  | _, dyn _ c, f => ∀ i, Allows write (c i) f
  | _, decorator _ A c, f => ∀ fac, Allows write c (A.access fac f)
  | _, profiler c, f => Allows write c f
  | _, remote _, _ => False

/-- Leaves can hold an element: those under an `Exclusive`, or, if `all`, every leaf.  A `Compressed` can
moreover hold a second 8-byte header beside any number of elements that it can hold. -/
def Room [LinearOrder K] : {V : Type} → (all : Bool) → (t : MapStack K V) → t.block.State → Prop
  | _, all, array sz _ _, s => all = true → ∀ e, sz e ≤ Array.capacity s
  | _, all, btree _ sz, s => all = true → ∀ e, sz e ≤ BTree.capacity s
  | _, all, compressed _ cd _ _, s => all = true → ∀ e b, cd.enc e = some b →
      16 + b.length ≤ Compressed.capacity s ∧ 8 ≤ (Compressed.capacity s - 8) % b.length
  | _, all, inclusive _ b, s => Room all b s.2
  | _, _, exclusive f b, s => Room true f s.1 ∧ Room true b s.2
  | _, all, batch c, s => Stack.All (Room all c) s ∧ (all = true → 0 < (Byoc.batch c.block).capacity s)
  | _, all, associative _ c, s => Stack.All (Room all c) s
  | _, all, flushStopper c, s => Room all c s
  | _, all, sequential c, s => Room all c s
  | _, all, dyn _ c, s => Room all (c s.1) s.2
  | _, all, decorator _ _ c, s => Room all c s.1
  | _, all, profiler c, s => Room all c s.1
  | _, all, remote c, s => Room all c s

end MapStack
end Byoc
