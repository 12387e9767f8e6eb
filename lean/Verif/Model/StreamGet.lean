import Verif.Model.StreamStack
import Verif.Model.Get
import Verif.Model.MapStack

/-!
# `get` and `get_mut` through containers nested over serialised storage

The accesses of Model/StreamStack's nestings.  Simplification: a cell is used once and dropped before the next call, see `GetOps`.
-/

namespace Byoc

variable {K V : Type}

/-- src/stream/get.rs -/
def byteStreamByGet {R : Type} [LinearOrder K] [LinearOrder R] (cd : Codec (K × V)) (rank : V → R) :
    GetOps (byteStreamBy cd rank) where
  get := ByteStream.get cd
  getMut := ByteStream.getMut cd

namespace StoreStack

/-- What the `Decoration`s met by an access do to the cells (src/decorator/decorator.rs): one `Access` per
`Decorator` on the way. -/
def Accesses : {V : Type} → StoreStack K V → Type
  | _, array _ _ _ => Unit
  | _, stream _ _ _ => Unit
  | _, compressed _ _ _ _ => Unit
  | _, exclusive f _ => Accesses f
  | _, batch c => Accesses c
  | _, associative _ c => Accesses c
  | _, flushStopper c => Accesses c
  | _, sequential c => Accesses c
  | _, dyn ι c => (i : ι) → Accesses (c i)
  | _, decorator D c => Access D × Accesses c
  | _, profiler c => Accesses c

/-- `get` and `get_mut` of the container described: src/array/get.rs, src/stream/get.rs,
src/compression/get.rs and the wrappers of Model/Get.lean. -/
def gets [LinearOrder K] : {V : Type} → (t : StoreStack K V) → t.Accesses → GetOps t.block
  | _, array sz srt srtS, _ => arrayGet sz srt srtS
  | _, stream _ cd rank, _ => byteStreamByGet cd rank
  | _, compressed z cd srt srtU, _ => compressedGet z cd srt srtU
  | _, exclusive f _, a => exclusiveGet (f.gets a)
  | _, batch c, a => batchGet (c.gets a)
  | _, associative hash c, a => associativeGet hash (c.gets a)
  | _, flushStopper c, a => flushStopperGet (c.gets a)
  | _, sequential c, a => sequentialGet (c.gets a)
  | _, dyn _ c, a => viaDefaultGet (anyOfGet fun i => (c i).gets (a i))
  | _, decorator _ c, a => decoratorGet a.1 (c.gets a.2)
  | _, profiler c, a => profilerGet (c.gets a)

/-- No `Exclusive` inside that an access goes through. -/
def NoExclusive : {V : Type} → StoreStack K V → Prop
  | _, exclusive _ _ => False
  | _, batch c => c.NoExclusive
  | _, associative _ c => c.NoExclusive
  | _, flushStopper c => c.NoExclusive
  | _, sequential c => c.NoExclusive
  | _, dyn _ c => ∀ i, (c i).NoExclusive
  | _, decorator _ c => c.NoExclusive
  | _, profiler c => c.NoExclusive
  | _, _ => True

end StoreStack
end Byoc
