import Verif.Model.Utils
import Mathlib.Data.Prod.Lex

/-!
# Model of byte streams: `VecStream`, `IOVec`, `ByteStream`

Bytes are modelled as bytes.  bincode is a `Codec`.
-/

namespace Byoc

/-- bincode as used by the crate: `enc` is `bincode::serialize` (`none` for `Err`), `dec` is
`bincode::deserialize_from` a slice, which ignores the bytes after the value (`law`). -/
structure Codec (O : Type) where
  enc : O → Option (List UInt8)
  dec : List UInt8 → Option O
  law : ∀ o b pad, enc o = some b → dec (b ++ pad) = some o

/-! ## VecStream -/

/-- src/stream/vec_stream.rs 10-13.  A handle: the bytes of the (shared) vector and the position.
Simplification: handles on the same vector are used one after the other in the code modelled, so the
vector is passed from one to the next. -/
structure VecStream where
  vec : List UInt8
  pos : Nat
deriving DecidableEq

/-- `std::io::SeekFrom`. -/
inductive SeekFrom where
  | start (n : Nat)
  | end (n : Int)
  | current (n : Int)

namespace VecStream

/-- lines 17-22 -/
def new : VecStream := ⟨[], 0⟩

/-- lines 41-60: `read` into a buffer of `n` bytes; returns the bytes copied in the buffer. -/
def read (s : VecStream) (n : Nat) : List UInt8 × VecStream :=
  if s.vec.length ≤ s.pos then ([], s)
  else
    let len := if s.vec.length - s.pos < n then s.vec.length - s.pos else n
    ((s.vec.drop s.pos).take len, { s with pos := s.pos + len })

/-- `Vec::resize(n, 0)`. -/
def resizeVec (v : List UInt8) (n : Nat) : List UInt8 :=
  if n ≤ v.length then v.take n else v ++ List.replicate (n - v.length) 0

/-- `copy_from_slice` of `buf` at position `p`, for `p + buf.len() ≤ v.len()`. -/
def overwrite (v : List UInt8) (p : Nat) (buf : List UInt8) : List UInt8 :=
  v.take p ++ buf ++ v.drop (p + buf.length)

/-- lines 64-82: `write`.  `vec_len - self.pos` underflows if the vector was shortened through
another handle. -/
def write (s : VecStream) (buf : List UInt8) : Res (Nat × VecStream) := do
  let room ← Res.sub s.vec.length s.pos
  let vec := if room < buf.length then resizeVec s.vec (s.pos + buf.length) else s.vec
  pure (buf.length, ⟨overwrite vec s.pos buf, s.pos + buf.length⟩)

/-- lines 90-107: `seek`.  `i64` is `Int`. -/
def seek (s : VecStream) (w : SeekFrom) : Nat × VecStream :=
  let max : Int := s.vec.length
  let pos : Int := match w with
    | .start n => n
    | .end n => n + max
    | .current n => s.pos + n
  let pos := if pos < 0 then 0 else if pos > max then max else pos
  (pos.toNat, { s with pos := pos.toNat })

/-- lines 115-120: `resize`. -/
def resize (s : VecStream) (n : Nat) : VecStream :=
  ⟨resizeVec s.vec n, if s.pos > n then n else s.pos⟩

end VecStream

/-! ## IOVec -/

/-- src/stream/io_vec.rs 90-98. -/
structure IOVec where
  stream : VecStream
  chunk : Nat
deriving DecidableEq

/-- Capacity of `std::io::BufReader` buffers. -/
def bufCap : Nat := 8192

/-- `std::io::BufReader<VecStream>::read` into `n` bytes: a large read on an empty buffer goes straight
to the stream; otherwise the buffer is filled if it is empty, and as much as it has is returned. -/
def bufRead (s : VecStream) (buf : List UInt8) (n : Nat) : List UInt8 × VecStream × List UInt8 :=
  if buf = [] ∧ bufCap ≤ n then
    let (b, s) := s.read n
    (b, s, [])
  else
    let (buf, s) := if buf = [] then s.read bufCap else (buf, s)
    (buf.take n, s, buf.drop n)

namespace IOVec

variable {O : Type} (cd : Codec O)

/-- src/stream/io_vec.rs 28-44 and 253-264, 298-309: `IOIter`/`IOVecIter::next` until `None`: chunks are
read through a `BufReader`, a short read ends the iteration, an undecodable chunk panics.
Simplification: the iteration is done eagerly.  `fuel` bounds the number of chunks. -/
def iterGo (c : Nat) : Nat → VecStream → List UInt8 → Res (List O)
  | 0, _, _ => .ok []
  | fuel + 1, s, buf =>
    let (b, s, buf) := bufRead s buf c
    if b.length < c then .ok []
    else do
      let o ← Res.unwrap (cd.dec b)
      let os ← iterGo c fuel s buf
      pure (o :: os)

/-- lines 616-621: `iter`: from the start of a clone of the stream. -/
def iter (v : IOVec) : Res (List O) :=
  iterGo cd v.chunk (v.stream.vec.length + 1) (v.stream.seek (.start 0)).2 []

/-- lines 624-626: `into_iter`: from the *current position* of the stream. -/
def intoIter (v : IOVec) : Res (List O) :=
  iterGo cd v.chunk (v.stream.vec.length + 1) v.stream []

/-- lines 420-427: `len`, in elements. -/
def len (v : IOVec) : Nat := (v.stream.seek (.end 0)).1 / v.chunk

/-- lines 430-435: `size`, in bytes. -/
def size (v : IOVec) : Nat := (v.stream.seek (.end 0)).1

/-- lines 459-477: `get`.  `Err` (undecodable) is a panic here. -/
def get (v : IOVec) (n : Nat) : Res (Option O) :=
  let s := (v.stream.seek (.start (n * v.chunk))).2
  let b := (s.read v.chunk).1
  if b.length < v.chunk then .ok none
  else do
    let o ← Res.unwrap (cd.dec b)
    pure (some o)

/-- lines 50-64: `IOChunk::serialize`: the bytes padded with zeros to the chunk size; `none` for the
errors. -/
def chunkOf (c : Nat) (o : O) : Option (List UInt8) :=
  match cd.enc o with
  | none => none
  | some b => if b.length > c then none else some (b ++ List.replicate (c - b.length) 0)

/-- lines 526-534: the loop of `append`: values are popped from the end of the vector.  `l` is the
vector reversed.  Returns whether it succeeded, and the stream.
Simplification: the `BufWriter`, flushed when dropped, is a plain sequence of writes. -/
def appendLoop (c : Nat) : List O → VecStream → Res (Bool × VecStream)
  | [], s => .ok (true, s)
  | o :: l, s =>
    match chunkOf cd c o with
    | none => .ok (false, s)
    | some ch => do
      let (_, s) ← s.write ch
      appendLoop c l s

/-- lines 519-536: `append`. -/
def append (v : IOVec) (l : List O) : Res (Bool × IOVec) := do
  let s := (v.stream.seek (.end 0)).2
  let (b, s) ← appendLoop cd v.chunk l.reverse s
  pure (b, { v with stream := s })

/-- lines 543-613: `swap_remove`.  `Err` (undecodable) is a panic here. -/
def swapRemove (v : IOVec) (n : Nat) : Res (Option O × IOVec) := do
  let pos := n * v.chunk
  let s := (v.stream.seek (.start pos)).2
  let (b, s) := s.read v.chunk
  let item ← if b.length < v.chunk then pure none else (do
    let o ← Res.unwrap (cd.dec b)
    pure (some o))
  let (e, s) := s.seek (.end 0)
  if e < v.chunk then pure (none, { v with stream := s })
  else do
    let s ← if pos < e - v.chunk then (do
        let s := (s.seek (.start (e - v.chunk))).2
        let (last, s) := s.read v.chunk
        if last.length < v.chunk then Res.panic
        else do
          let s := (s.seek (.start pos)).2
          let (_, s) ← s.write last
          pure s)
      else pure s
    pure (item, { v with stream := s.resize (e - v.chunk) })

/-- lines 345-387, 631-636 and 131-167: `iter_mut`, when the cell of element number `j` is modified to `o` and
dropped: the serialised bytes, not padded, are written at the position of the chunk.  A
serialisation error panics. -/
def writeBack (v : IOVec) (j : Nat) (o : O) : Res IOVec := do
  let s := (v.stream.seek (.start (j * v.chunk))).2
  let b ← Res.unwrap (cd.enc o)
  let (_, s) ← s.write b
  -- the cell has its own handle: only the vector is shared with `v`
  pure { v with stream := { v.stream with vec := s.vec } }

end IOVec

/-! ## ByteStream -/

/-- src/stream/stream.rs 69-77, with `VecStreamFactory`. -/
structure ByteStream where
  stream : List (Option IOVec)
  capacity : Nat
deriving DecidableEq

namespace ByteStream

variable {K V : Type} (cd : Codec (K × V))

/-- src/stream/stream.rs 87-101 -/
def new (capacity : Nat) : ByteStream := ⟨List.replicate 64 none, capacity⟩

/-- src/stream/building_block.rs 30-33: size of one optional stream. -/
def sizeOpt (o : Option IOVec) : Nat :=
  match o with
  | none => 0
  | some v => v.size

/-- src/stream/building_block.rs 26-36 -/
def size (s : ByteStream) : Nat := (s.stream.map sizeOpt).sum

/-- The elements of one optional stream, through `iter()`. -/
def items (o : Option IOVec) : Res (List (K × V)) :=
  match o with
  | none => .ok []
  | some v => v.iter cd

/-- src/stream/building_block.rs 42-50.  Simplification: each stream is read to its end. -/
def containsGo [DecidableEq K] (k : K) : List (Option IOVec) → Res Bool
  | [] => .ok false
  | o :: l => do
    let es ← items cd o
    if es.any (fun e => decide (e.1 = k)) then pure true else containsGo k l

/-- src/stream/building_block.rs 59-73: position of the first element with key `k`, with the index of
its stream. -/
def findGo [DecidableEq K] (k : K) : Nat → List (Option IOVec) → Res (Option (Nat × Nat))
  | _, [] => .ok none
  | i, o :: l => do
    let es ← items cd o
    match findKey es k with
    | some j => pure (some (i, j))
    | none => findGo k (i + 1) l

/-- `self.stream[i].as_mut().unwrap().swap_remove(j)` -/
def removeAt (st : List (Option IOVec)) (i j : Nat) :
    Res (Option (K × V) × List (Option IOVec)) := do
  let o ← Res.unwrap st[i]?
  let v ← Res.unwrap o
  let (item, v) ← v.swapRemove cd j
  pure (item, st.set i (some v))

/-- src/stream/building_block.rs 57-89: `take`. -/
def take [DecidableEq K] (s : ByteStream) (k : K) : Res (Option (K × V) × ByteStream) := do
  match (← findGo cd k 0 s.stream) with
  | none => pure (none, s)
  | some (i, j) => do
    let (item, st) ← removeAt cd s.stream i j
    let e ← Res.unwrap item
    pure (some e, { s with stream := st })

/-- src/stream/building_block.rs 102-110: the loop over the elements of one stream; the `break` leaves
this loop only. -/
def takeMultipleStream [LinearOrder K] : List (K × V) → List K → List (K × V) × List K
  | [], ks => ([], ks)
  | e :: l, ks =>
    match bsearch ks e.1 with
    | none => takeMultipleStream l ks
    | some i =>
      let ks := ks.eraseIdx i
      if ks = [] then ([e], ks)
      else
        let (out, ks) := takeMultipleStream l ks
        (e :: out, ks)

/-- src/stream/building_block.rs 101-112 -/
def takeMultipleGo [LinearOrder K] : List (Option IOVec) → List K → Res (List (K × V) × List K)
  | [], ks => .ok ([], ks)
  | o :: l, ks => do
    let es ← items cd o
    let (out, ks) := takeMultipleStream es ks
    let (outs, ks) ← takeMultipleGo l ks
    pure (out ++ outs, ks)

/-- src/stream/building_block.rs 98-114: `take_multiple`: the elements found are copied, the streams
are not modified. -/
def takeMultiple [LinearOrder K] (s : ByteStream) (ks : List K) :
    Res (List (K × V) × List K × ByteStream) := do
  let (out, ks) ← takeMultipleGo cd s.stream (sortKeys ks)
  pure (out, ks, s)

/-- The triple `(value, i, j)` with its lexicographic order; of the value, only its rank in the order of
the values is kept. -/
abbrev Slot (R : Type) := R ×ₗ (Nat ×ₗ Nat)

section
variable {R : Type} (rank : V → R)

/-- src/stream/building_block.rs 134-136: what one stream pushes in the `KMin`. -/
def slots (i c : Nat) : Nat → List (K × V) → List (Slot R × Nat)
  | _, [] => []
  | j, e :: l => (toLex (rank e.2, toLex (i, j)), c) :: slots i c (j + 1) l

/-- src/stream/building_block.rs 131-139: what all the streams push in the `KMin`. -/
def allSlots : Nat → List (Option IOVec) → Res (List (Slot R × Nat))
  | _, [] => .ok []
  | i, none :: l => allSlots (i + 1) l
  | i, some v :: l => do
    let es ← v.iter cd
    let rest ← allSlots (i + 1) l
    pure (slots rank i v.chunk 0 es ++ rest)

end

/-- src/stream/building_block.rs 149-155: remove the elements at these places, in this order. -/
def removeAll : List (Nat × Nat) → List (Option IOVec) → Res (List (K × V) × List (Option IOVec))
  | [], st => .ok ([], st)
  | (i, j) :: l, st => do
    let (item, st) ← removeAt cd st i j
    match item with
    | none => pure ([], st)
    | some e => do
      let (out, st) ← removeAll l st
      pure (e :: out, st)

/-- `sort_unstable()` of the pairs, then `rev()`. -/
def descending (l : List (Nat × Nat)) : List (Nat × Nat) :=
  ((l.map toLex).insertionSort (fun a b : Nat ×ₗ Nat => b ≤ a)).map ofLex

/-- src/stream/building_block.rs 127-157: `pop`, for values ordered by their rank. -/
def popBy {R : Type} [LinearOrder R] (rank : V → R) (s : ByteStream) (n : Nat) :
    Res (List (K × V) × ByteStream) := do
  let slots ← allSlots cd rank 0 s.stream
  let m ← (KMin.new n : KMin (Slot R)).pushAll slots
  let indexes := m.items.map fun x => ofLex (ofLex x.1).2
  let (out, st) ← removeAll cd (descending indexes) s.stream
  pure (out, { s with stream := st })

/-- src/stream/building_block.rs 127-157: `pop`. -/
def pop [LinearOrder V] (s : ByteStream) (n : Nat) : Res (List (K × V) × ByteStream) := popBy cd id s n

/-- src/stream/building_block.rs 169-196: the loop of `push` with its local `total_size`. -/
def pushLoop : List (K × V) → Nat → ByteStream → Res (List (K × V) × ByteStream)
  | [], _, s => .ok ([], s)
  | e :: l, total, s =>
    match cd.enc e with
    | none => do
      let (out, s) ← pushLoop l total s
      pure (e :: out, s)
    | some b => do
      let (i, c) ← chunkSize b.length
      if c + total > s.capacity then
        let (out, s) ← pushLoop l total s
        pure (e :: out, s)
      else do
        let o ← Res.unwrap s.stream[i]?
        let v := o.getD ⟨VecStream.new, c⟩
        let (ok, v) ← v.append cd [e]
        let s := { s with stream := s.stream.set i (some v) }
        if ok then pushLoop l (total + c) s
        else .panic -- lines 194: `value.pop().unwrap()` on the emptied vector

/-- src/stream/building_block.rs 165-198: `push`. -/
def push (s : ByteStream) (l : List (K × V)) : Res (List (K × V) × ByteStream) :=
  pushLoop cd l s.size s

/-- src/stream/building_block.rs 211-218: `flush`: each stream is iterated from its current position. -/
def flushGo : List (Option IOVec) → Res (List (K × V))
  | [] => .ok []
  | none :: l => flushGo l
  | some v :: l => do
    let es ← v.intoIter cd
    let rest ← flushGo l
    pure (es ++ rest)

def flush (s : ByteStream) : Res (List (K × V) × ByteStream) := do
  let out ← flushGo cd s.stream
  pure (out, { s with stream := s.stream.map fun _ => none })

/-- src/stream/get.rs 71-83: `get`: a copy of the value of the first element with the key; reading it
does not touch the stream. -/
def get [DecidableEq K] (s : ByteStream) (k : K) (_touch : V → V) : Res (Option V × ByteStream) := do
  match (← findGo cd k 0 s.stream) with
  | none => pure (none, s)
  | some (i, j) => do
    let o ← Res.unwrap s.stream[i]?
    let es ← items cd o
    let e ← Res.unwrap es[j]?
    pure (some e.2, s)

/-- src/stream/get.rs 94-110: `get_mut`, writing `f v` in the cell and dropping it. -/
def getMut [DecidableEq K] (s : ByteStream) (k : K) (f : V → V) : Res (Option V × ByteStream) := do
  match (← findGo cd k 0 s.stream) with
  | none => pure (none, s)
  | some (i, j) => do
    let o ← Res.unwrap s.stream[i]?
    let v ← Res.unwrap o
    let es ← v.iter cd
    let e ← Res.unwrap es[j]?
    let v ← v.writeBack cd j (e.1, f e.2)
    pure (some e.2, { s with stream := s.stream.set i (some v) })

end ByteStream

/-- src/stream/building_block.rs: `ByteStream` as a container. -/
def byteStream {K V : Type} [LinearOrder K] [LinearOrder V] (cd : Codec (K × V)) : Block K V where
  State := ByteStream
  capacity s := s.capacity
  size := ByteStream.size
  contains s k := do
    let b ← ByteStream.containsGo cd k s.stream
    pure (b, s)
  take := ByteStream.take cd
  takeMultiple := ByteStream.takeMultiple cd
  pop := ByteStream.pop cd
  push := ByteStream.push cd
  flush := ByteStream.flush cd

/-- The same with values ordered by their rank (the cells of the policies, whose `Eq` is coarser than
identity). -/
def byteStreamBy {K V R : Type} [LinearOrder K] [LinearOrder R] (cd : Codec (K × V)) (rank : V → R) :
    Block K V where
  State := ByteStream
  capacity s := s.capacity
  size := ByteStream.size
  contains s k := do
    let b ← ByteStream.containsGo cd k s.stream
    pure (b, s)
  take := ByteStream.take cd
  takeMultiple := ByteStream.takeMultiple cd
  pop := ByteStream.popBy cd rank
  push := ByteStream.push cd
  flush := ByteStream.flush cd

theorem byteStreamBy_id {K V : Type} [LinearOrder K] [LinearOrder V] (cd : Codec (K × V)) :
    byteStreamBy cd id = byteStream cd := rfl

/-- src/stream/get.rs -/
def byteStreamGet {K V : Type} [LinearOrder K] [LinearOrder V] (cd : Codec (K × V)) :
    GetOps (byteStream cd) where
  get := ByteStream.get cd
  getMut := ByteStream.getMut cd

end Byoc
