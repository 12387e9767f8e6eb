import Verif.Model.Stream

/-!
# Model of `Compressed` (src/compression/)
-/

namespace Byoc

/-- bincode on vectors: a vector is serialised as its length on 8 bytes then its elements
(`VecCodec.encode`); `enc` is the serialisation of one element (`none` for `Err`), `dec` is
`bincode::deserialize_from` to a vector. -/
structure VecCodec (O : Type) where
  enc : O → Option (List UInt8)
  dec : List UInt8 → Option (List O)

namespace VecCodec

variable {O : Type} (cd : VecCodec O)

/-- A `u64` in little-endian order. -/
def header (n : Nat) : List UInt8 := (List.range 8).map fun i => UInt8.ofNat (n / 256 ^ i)

/-- The elements one after the other. -/
def body : List O → Option (List UInt8)
  | [] => some []
  | o :: l => do
    let b ← cd.enc o
    let bs ← body l
    pure (b ++ bs)

/-- `bincode::serialize(&[O])`. -/
def encode (l : List O) : Option (List UInt8) := do
  let b ← cd.body l
  pure (header l.length ++ b)

/-- Deserialising what was serialised gives it back. -/
def Law : Prop := ∀ l b, cd.encode l = some b → cd.dec b = some l

/-- `match bincode::serialized_size(e) { Err(_) => 0, Ok(s) => s }`. -/
def size (o : O) : Nat := match cd.enc o with
  | none => 0
  | some b => b.length

end VecCodec

/-- lz4: `comp` is what the encoder writes, `decomp` what the decoder reads to the end of a stream. -/
structure Lz4 where
  comp : List UInt8 → List UInt8
  decomp : List UInt8 → Option (List UInt8)
  law : ∀ b, decomp (comp b) = some b
  empty : decomp [] = some []

/-- src/compression/compression.rs 61-65, on a `VecStream`. -/
structure Compressed where
  stream : VecStream
  capacity : Nat
deriving DecidableEq

namespace Compressed

variable {K V : Type} (z : Lz4) (cd : VecCodec (K × V))

/-- src/compression/compression.rs 72-79 -/
def new (capacity : Nat) : Compressed := ⟨VecStream.new, capacity⟩

/-- lines 89-110: `read_bytes`: from the start of a clone of the stream to its end. -/
def readBytes (c : Compressed) : Option (List UInt8) := z.decomp c.stream.vec

/-- lines 112-124: `read`. -/
def read (c : Compressed) : Option (List (K × V)) :=
  match c.readBytes z with
  | none => none
  | some b => if b = [] then some [] else cd.dec b

/-- lines 129-182: `write`; `none` for the errors.  Simplification: a stream operation on a `VecStream`
fails only by panicking. -/
def write (c : Compressed) (l : List (K × V)) : Res (Option Compressed) :=
  if l = [] then .ok (some { c with stream := c.stream.resize 0 })
  else match cd.encode l with
    | none => .ok none
    | some b =>
      if b.length > c.capacity then .ok none
      else do
        let s := ((c.stream.resize 0).seek (.start 0)).2
        let (_, s) ← s.write (z.comp b)
        pure (some { c with stream := s })

/-- `self.write(..)` then `expect` or `panic!`. -/
def rewrite (c : Compressed) (l : List (K × V)) : Res Compressed := do
  let o ← c.write z cd l
  Res.unwrap o

/-- src/compression/building_block.rs 25-30 -/
def size (c : Compressed) : Nat := match c.readBytes z with
  | none => 0
  | some b => b.length

/-- src/compression/building_block.rs 36-43 -/
def contains [DecidableEq K] (c : Compressed) (k : K) : Bool := match c.read z cd with
  | none => false
  | some l => l.any (fun e => decide (e.1 = k))

/-- src/compression/building_block.rs 53-80: `take`. -/
def take [DecidableEq K] (c : Compressed) (k : K) : Res (Option (K × V) × Compressed) :=
  match c.read z cd with
  | none => .ok (none, c)
  | some l =>
    match findKey l k with
    | none => .ok (none, c)
    | some i => do
      let e ← Res.unwrap l[i]?
      let c ← c.rewrite z cd (swapRemove l i)
      pure (some e, c)

/-- `Vec::swap_remove` at each index in turn; panics out of bounds. -/
def removeIdxs {E : Type} : List Nat → List E → Res (List E × List E)
  | [], l => .ok ([], l)
  | i :: is, l => do
    let e ← Res.unwrap l[i]?
    let (out, l) ← removeIdxs is (swapRemove l i)
    pure (e :: out, l)

/-- src/compression/building_block.rs 114-123: the pairs of indices of an element and of its key. -/
def matchesOf [LinearOrder K] (keys : List K) : Nat → List (K × V) → List (Nat × Nat)
  | _, [] => []
  | i, e :: l => match bsearch keys e.1 with
    | none => matchesOf keys (i + 1) l
    | some j => (i, j) :: matchesOf keys (i + 1) l

/-- src/compression/building_block.rs 92-151: `take_multiple`. -/
def takeMultiple [LinearOrder K] (c : Compressed) (ks : List K) :
    Res (List (K × V) × List K × Compressed) :=
  match c.read z cd with
  | none => .ok ([], ks, c)
  | some l => do
    let keys := sortKeys ks
    let m := matchesOf keys 0 l
    let (out, l) ← removeIdxs (m.map Prod.fst).reverse l
    let (_, keys) ← removeIdxs ((m.map Prod.snd).insertionSort (· ≤ ·)).reverse keys
    if out = [] then pure (out, keys, c)
    else do
      let c ← c.rewrite z cd l
      pure (out, keys, c)

/-- src/compression/building_block.rs 170-213: `pop`; `srt` is `sort_by` on the value then the key. -/
def pop (srt : Sorter (K × V)) (c : Compressed) (n : Nat) : Res (List (K × V) × Compressed) :=
  match c.read z cd with
  | none => .ok ([], c)
  | some l =>
    if l = [] then .ok ([], c)
    else
      let l := srt.run l
      let (split, splitSize, _) := findCutAtSize cd.size n l
      if splitSize < n then .ok (l, { c with stream := c.stream.resize 0 })
      else do
        let c ← c.rewrite z cd (l.take split)
        pure (l.drop split, c)

/-- src/compression/building_block.rs 232-314: `push`; `srtU` is `sort_unstable_by` on the value. -/
def push (srtU : Sorter (K × V)) (c : Compressed) (values : List (K × V)) :
    Res (List (K × V) × Compressed) :=
  match c.readBytes z with
  | none => .ok (values, c)
  | some bytes =>
    match (if bytes = [] then some [] else cd.dec bytes) with
    | none => .ok (values, c)
    | some vec =>
      match cd.encode values with
      | none => .ok (values, c)
      | some eb => do
        let totalSize := eb.length
        let room ← Res.sub c.capacity bytes.length
        if totalSize > c.capacity then
          let values := srtU.run values
          let (cut, _, _) := findCutAtSize cd.size (totalSize - c.capacity) values
          let c ← c.rewrite z cd (values.take cut)
          pure (vec ++ values.drop cut, c)
        else if totalSize ≤ room then
          let c ← c.rewrite z cd (vec ++ values)
          pure ([], c)
        else
          let vec := srtU.run vec
          let (cut, _, _) := findCutAtSize cd.size (totalSize - room) vec
          let c ← c.rewrite z cd (vec.take cut ++ values)
          pure (vec.drop cut, c)

/-- src/compression/building_block.rs 326-338: `flush`. -/
def flush (c : Compressed) : Res (List (K × V) × Compressed) :=
  match c.read z cd with
  | none => .ok ([], c)
  | some l => .ok (l, { c with stream := c.stream.resize 0 })

/-- src/compression/get.rs 94-107: `get`: a copy, reading it does not touch the stream. -/
def get [DecidableEq K] (c : Compressed) (k : K) (_touch : V → V) : Res (Option V × Compressed) :=
  match c.read z cd with
  | none => .ok (none, c)
  | some l => .ok ((l.find? (fun e => decide (e.1 = k))).map Prod.snd, c)

/-- src/compression/get.rs 118-143 and 71-84: `get_mut`, writing `f v` in the cell and dropping it:
the elements are written back; the clone of the stream shares its bytes, not its position. -/
def getMut [DecidableEq K] (c : Compressed) (k : K) (f : V → V) : Res (Option V × Compressed) :=
  match c.read z cd with
  | none => .ok (none, c)
  | some l =>
    match findKey l k with
    | none => .ok (none, c)
    | some i => do
      let e ← Res.unwrap l[i]?
      let c' ← c.rewrite z cd (l.set i (e.1, f e.2))
      pure (some e.2, { c with stream := { c.stream with vec := c'.stream.vec } })

end Compressed

/-- src/compression/building_block.rs: `Compressed` as a container. -/
def compressed {K V : Type} [LinearOrder K] (z : Lz4) (cd : VecCodec (K × V))
    (srt srtU : Sorter (K × V)) : Block K V where
  State := Compressed
  capacity c := c.capacity
  size := Compressed.size z
  contains c k := .ok (c.contains z cd k, c)
  take := Compressed.take z cd
  takeMultiple := Compressed.takeMultiple z cd
  pop := Compressed.pop z cd srt
  push := Compressed.push z cd srtU
  flush := Compressed.flush z cd

/-- src/compression/get.rs -/
def compressedGet {K V : Type} [LinearOrder K] (z : Lz4) (cd : VecCodec (K × V))
    (srt srtU : Sorter (K × V)) : GetOps (compressed z cd srt srtU) where
  get := Compressed.get z cd
  getMut := Compressed.getMut z cd

end Byoc
