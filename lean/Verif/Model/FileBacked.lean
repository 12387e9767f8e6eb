import Verif.Model.Compressed

/-!
# Model of `FileStream`, and of the containers stored in one

`FileStream::new` opens its file with `OpenOptions::new().write(true).create(true)`: the options are
part of the model, and a read on a file that was not opened for reading is an error (`EBADF`).
-/

namespace Byoc

/-- `std::fs::OpenOptions`. -/
structure OpenOptions where
  read : Bool
  write : Bool
  create : Bool
deriving DecidableEq

/-- src/stream/file_stream.rs 18-22: the bytes of the file, the cursor (shared by the clones, which
are `dup`s of the descriptor) and the options it was opened with.  Handle counting is in
`Verif/Model/Handles.lean`. -/
structure FileStream where
  vec : List UInt8
  pos : Nat
  opts : OpenOptions
deriving DecidableEq

namespace FileStream

/-- src/stream/file_stream.rs 30-42: `new`, of a file containing `bytes` (created empty if it does
not exist; it is not truncated).  Simplification: the file can be opened. -/
def new (bytes : List UInt8) : FileStream :=
  ⟨bytes, 0, { read := false, write := true, create := true }⟩

/-- src/stream/file_stream.rs 89-93: `read` into a buffer of `n` bytes; `none` is `Err`. -/
def read (s : FileStream) (n : Nat) : Option (List UInt8 × FileStream) :=
  if s.opts.read then
    some ((s.vec.drop s.pos).take n, { s with pos := s.pos + ((s.vec.drop s.pos).take n).length })
  else none

/-- src/stream/file_stream.rs 95-103: `write`; `none` is `Err`.  A hole is filled with zeros.
Simplification: the disk is never full. -/
def write (s : FileStream) (buf : List UInt8) : Option (Nat × FileStream) :=
  if s.opts.write then
    let vec := if s.vec.length < s.pos then VecStream.resizeVec s.vec s.pos else s.vec
    some (buf.length, { s with vec := VecStream.overwrite vec s.pos buf, pos := s.pos + buf.length })
  else none

/-- src/stream/file_stream.rs 105-109: `seek`; before the start of the file it is an error. -/
def seek (s : FileStream) (w : SeekFrom) : Option (Nat × FileStream) :=
  let pos : Int := match w with
    | .start n => n
    | .end n => s.vec.length + n
    | .current n => s.pos + n
  if pos < 0 then none else some (pos.toNat, { s with pos := pos.toNat })

/-- src/stream/file_stream.rs 115-120: `resize` is `set_len`: the cursor does not move. -/
def resize (s : FileStream) (n : Nat) : Option FileStream :=
  if s.opts.write then some { s with vec := VecStream.resizeVec s.vec n } else none

end FileStream

/-! ## IOVec on a file -/

/-- src/stream/io_vec.rs 90-98, on a `FileStream`. -/
structure FileVec where
  stream : FileStream
  chunk : Nat
deriving DecidableEq

/-- `std::io::BufReader<FileStream>::read` into `n` bytes; see `bufRead`. -/
def fileBufRead (s : FileStream) (buf : List UInt8) (n : Nat) :
    Option (List UInt8 × FileStream × List UInt8) :=
  if buf = [] ∧ bufCap ≤ n then do
    let (b, s) ← s.read n
    pure (b, s, [])
  else do
    let (buf, s) ← if buf = [] then s.read bufCap else pure (buf, s)
    pure (buf.take n, s, buf.drop n)

namespace FileVec

variable {O : Type} (cd : Codec O)

/-- src/stream/io_vec.rs 28-44 and 253-264, 298-309: the iterators until `None`: a read error is a
panic ("Read error while iterating stream."), a short read ends the iteration, an undecodable chunk
panics. -/
def iterGo (c : Nat) : Nat → FileStream → List UInt8 → Res (List O)
  | 0, _, _ => .ok []
  | fuel + 1, s, buf =>
    match fileBufRead s buf c with
    | none => .panic
    | some (b, s, buf) =>
      if b.length < c then .ok []
      else do
        let o ← Res.unwrap (cd.dec b)
        let os ← iterGo c fuel s buf
        pure (o :: os)

/-- lines 616-621: `iter`. -/
def iter (v : FileVec) : Res (List O) := do
  let (_, s) ← Res.unwrap (v.stream.seek (.start 0))
  iterGo cd v.chunk (v.stream.vec.length + 1) s []

/-- lines 624-626: `into_iter`. -/
def intoIter (v : FileVec) : Res (List O) := iterGo cd v.chunk (v.stream.vec.length + 1) v.stream []

/-- lines 430-435: `size`, in bytes; callers replace an error by 0. -/
def size (v : FileVec) : Nat := match v.stream.seek (.end 0) with
  | none => 0
  | some (p, _) => p

/-- lines 526-534: the loop of `append`; see `IOVec.appendLoop`. -/
def appendLoop (c : Nat) : List O → FileStream → Bool × FileStream
  | [], s => (true, s)
  | o :: l, s =>
    match IOVec.chunkOf cd c o with
    | none => (false, s)
    | some ch =>
      match s.write ch with
      | none => (false, s)
      | some (_, s) => appendLoop c l s

/-- lines 519-536: `append`. -/
def append (v : FileVec) (l : List O) : Bool × FileVec :=
  match v.stream.seek (.end 0) with
  | none => (false, v)
  | some (_, s) =>
    let (b, s) := appendLoop cd v.chunk l.reverse s
    (b, { v with stream := s })

/-- lines 543-613: `swap_remove`; the outer `none` is `Err`.  The `unwrap` of the last chunk and the
`expect` of the resize are panics. -/
def swapRemove (v : FileVec) (n : Nat) : Res (Option (Option O) × FileVec) :=
  let pos := n * v.chunk
  match v.stream.seek (.start pos) with
  | none => .ok (none, v)
  | some (_, s) =>
    match s.read v.chunk with
    | none => .ok (none, { v with stream := s })
    | some (b, s) =>
      match (if b.length < v.chunk then some none else (cd.dec b).map some) with
      | none => .ok (none, { v with stream := s })
      | some item =>
        match s.seek (.end 0) with
        | none => .ok (none, { v with stream := s })
        | some (e, s) =>
          if e < v.chunk then .ok (some none, { v with stream := s })
          else if pos < e - v.chunk then
            match s.seek (.start (e - v.chunk)) with
            | none => .ok (none, { v with stream := s })
            | some (_, s) =>
              match s.read v.chunk with
              | none => .ok (none, { v with stream := s })
              | some (last, s) =>
                if last.length < v.chunk then .panic
                else match s.seek (.start pos) with
                  | none => .ok (none, { v with stream := s })
                  | some (_, s) =>
                    match s.write last with
                    | none => .ok (none, { v with stream := s })
                    | some (_, s) => do
                      let s ← Res.unwrap (s.resize (e - v.chunk))
                      pure (some item, { v with stream := s })
          else do
            let s ← Res.unwrap (s.resize (e - v.chunk))
            pure (some item, { v with stream := s })

/-- lines 345-387, 631-636 and 131-167: `iter_mut`, when the cell of element number `j` is modified to
`o` and dropped; `none` is an error, which panics.  Simplification: the cell writes at the position of
the element; since the clones share their cursor it would be elsewhere, but this is not reached as
long as reading fails. -/
def writeBack (v : FileVec) (j : Nat) (o : O) : Option FileVec := do
  let (_, s) ← v.stream.seek (.start (j * v.chunk))
  let b ← cd.enc o
  let (_, s) ← s.write b
  pure { v with stream := s }

end FileVec

/-! ## ByteStream on files -/

/-- src/stream/stream.rs 69-77, with `TempFileStreamFactory` (src/stream/file_stream.rs 124-139). -/
structure FileByteStream where
  stream : List (Option FileVec)
  capacity : Nat
deriving DecidableEq

namespace FileByteStream

variable {K V : Type} (cd : Codec (K × V))

/-- src/stream/stream.rs 87-101 -/
def new (capacity : Nat) : FileByteStream := ⟨List.replicate 64 none, capacity⟩

/-- src/stream/building_block.rs 26-36 -/
def size (s : FileByteStream) : Nat :=
  (s.stream.map fun o => match o with
    | none => 0
    | some v => v.size).sum

/-- The elements of one optional stream, through `iter()`. -/
def items (o : Option FileVec) : Res (List (K × V)) :=
  match o with
  | none => .ok []
  | some v => v.iter cd

/-- src/stream/building_block.rs 42-50. -/
def containsGo [DecidableEq K] (k : K) : List (Option FileVec) → Res Bool
  | [] => .ok false
  | o :: l => do
    let es ← items cd o
    if es.any (fun e => decide (e.1 = k)) then pure true else containsGo k l

/-- src/stream/building_block.rs 59-73. -/
def findGo [DecidableEq K] (k : K) : Nat → List (Option FileVec) → Res (Option (Nat × Nat))
  | _, [] => .ok none
  | i, o :: l => do
    let es ← items cd o
    match findKey es k with
    | some j => pure (some (i, j))
    | none => findGo k (i + 1) l

/-- src/stream/building_block.rs 57-89: `take`. -/
def take [DecidableEq K] (s : FileByteStream) (k : K) : Res (Option (K × V) × FileByteStream) := do
  match (← findGo cd k 0 s.stream) with
  | none => pure (none, s)
  | some (i, j) => do
    let o ← Res.unwrap s.stream[i]?
    let v ← Res.unwrap o
    let (r, v) ← v.swapRemove cd j
    let item ← Res.unwrap r
    let e ← Res.unwrap item
    pure (some e, { s with stream := s.stream.set i (some v) })

/-- src/stream/building_block.rs 101-112 -/
def takeMultipleGo [LinearOrder K] : List (Option FileVec) → List K → Res (List (K × V) × List K)
  | [], ks => .ok ([], ks)
  | o :: l, ks => do
    let es ← items cd o
    let (out, ks) := ByteStream.takeMultipleStream es ks
    let (outs, ks) ← takeMultipleGo l ks
    pure (out ++ outs, ks)

/-- src/stream/building_block.rs 98-114: `take_multiple`. -/
def takeMultiple [LinearOrder K] (s : FileByteStream) (ks : List K) :
    Res (List (K × V) × List K × FileByteStream) := do
  let (out, ks) ← takeMultipleGo cd s.stream (sortKeys ks)
  pure (out, ks, s)

/-- src/stream/building_block.rs 131-139. -/
def allSlots : Nat → List (Option FileVec) → Res (List (ByteStream.Slot V × Nat))
  | _, [] => .ok []
  | i, none :: l => allSlots (i + 1) l
  | i, some v :: l => do
    let es ← v.iter cd
    let rest ← allSlots (i + 1) l
    pure (ByteStream.slots id i v.chunk 0 es ++ rest)

/-- src/stream/building_block.rs 149-155: `return ret` on an error. -/
def removeAll : List (Nat × Nat) → List (Option FileVec) → Res (List (K × V) × List (Option FileVec))
  | [], st => .ok ([], st)
  | (i, j) :: l, st => do
    let o ← Res.unwrap st[i]?
    let v ← Res.unwrap o
    let (r, v) ← v.swapRemove cd j
    let st := st.set i (some v)
    match r with
    | some (some e) => do
      let (out, st) ← removeAll l st
      pure (e :: out, st)
    | _ => pure ([], st)

/-- src/stream/building_block.rs 127-157: `pop`. -/
def pop [LinearOrder V] (s : FileByteStream) (n : Nat) : Res (List (K × V) × FileByteStream) := do
  let slots ← allSlots cd 0 s.stream
  let m ← (KMin.new n : KMin (ByteStream.Slot V)).pushAll slots
  let indexes := m.items.map fun x => ofLex (ofLex x.1).2
  let (out, st) ← removeAll cd (ByteStream.descending indexes) s.stream
  pure (out, { s with stream := st })

/-- src/stream/building_block.rs 169-196: the loop of `push`; a file created by the factory is empty. -/
def pushLoop : List (K × V) → Nat → FileByteStream → Res (List (K × V) × FileByteStream)
  | [], _, s => .ok ([], s)
  | e :: l, total, s =>
    match cd.enc e with
    | none => do
      let (out, s) ← pushLoop l total s
      pure (e :: out, s)
    | some b => do
      let (i, c) ← chunkSize b.length
      if c + total > s.capacity then
        let (out, s) ← pushLoop l total s
        pure (e :: out, s)
      else do
        let o ← Res.unwrap s.stream[i]?
        let v := o.getD ⟨FileStream.new [], c⟩
        let (ok, v) := v.append cd [e]
        let s := { s with stream := s.stream.set i (some v) }
        if ok then pushLoop l (total + c) s
        else .panic -- lines 194: `value.pop().unwrap()` on the emptied vector

/-- src/stream/building_block.rs 165-198: `push`. -/
def push (s : FileByteStream) (l : List (K × V)) : Res (List (K × V) × FileByteStream) :=
  pushLoop cd l s.size s

/-- src/stream/building_block.rs 211-217: `flush()` itself: the streams are taken out of the container. -/
def detach (s : FileByteStream) : List FileVec × FileByteStream :=
  (s.stream.filterMap id, { s with stream := s.stream.map fun _ => none })

/-- src/stream/building_block.rs 218: reading the iterator of `flush` to its end. -/
def drain : List FileVec → Res (List (K × V))
  | [] => .ok []
  | v :: l => do
    let es ← v.intoIter cd
    let rest ← drain l
    pure (es ++ rest)

/-- src/stream/building_block.rs 211-218: `flush`, with the iteration of what it returns. -/
def flush (s : FileByteStream) : Res (List (K × V) × FileByteStream) := do
  let (vs, s) := s.detach
  let out ← drain cd vs
  pure (out, s)

/-- src/stream/get.rs 71-83: `get`. -/
def get [DecidableEq K] (s : FileByteStream) (k : K) (_touch : V → V) :
    Res (Option V × FileByteStream) := do
  match (← findGo cd k 0 s.stream) with
  | none => pure (none, s)
  | some (i, j) => do
    let o ← Res.unwrap s.stream[i]?
    let es ← items cd o
    let e ← Res.unwrap es[j]?
    pure (some e.2, s)

/-- src/stream/get.rs 94-110: `get_mut`, writing `f v` in the cell and dropping it. -/
def getMut [DecidableEq K] (s : FileByteStream) (k : K) (f : V → V) :
    Res (Option V × FileByteStream) := do
  match (← findGo cd k 0 s.stream) with
  | none => pure (none, s)
  | some (i, j) => do
    let o ← Res.unwrap s.stream[i]?
    let v ← Res.unwrap o
    let es ← v.iter cd
    let e ← Res.unwrap es[j]?
    let v ← Res.unwrap (v.writeBack cd j (e.1, f e.2))
    pure (some e.2, { s with stream := s.stream.set i (some v) })

end FileByteStream

/-- src/stream/building_block.rs: `ByteStream` on temporary files as a container. -/
def fileByteStream {K V : Type} [LinearOrder K] [LinearOrder V] (cd : Codec (K × V)) : Block K V where
  State := FileByteStream
  capacity s := s.capacity
  size := FileByteStream.size
  contains s k := do
    let b ← FileByteStream.containsGo cd k s.stream
    pure (b, s)
  take := FileByteStream.take cd
  takeMultiple := FileByteStream.takeMultiple cd
  pop := FileByteStream.pop cd
  push := FileByteStream.push cd
  flush := FileByteStream.flush cd

/-- src/stream/get.rs -/
def fileByteStreamGet {K V : Type} [LinearOrder K] [LinearOrder V] (cd : Codec (K × V)) :
    GetOps (fileByteStream cd) where
  get := FileByteStream.get cd
  getMut := FileByteStream.getMut cd

/-! ## Compressed on a file -/

/-- src/compression/compression.rs 61-65, on a `FileStream`. -/
structure FileCompressed where
  stream : FileStream
  capacity : Nat
deriving DecidableEq

namespace FileCompressed

variable {K V : Type} (z : Lz4) (cd : VecCodec (K × V))

/-- src/compression/compression.rs 72-79, on a file containing `bytes`. -/
def new (bytes : List UInt8) (capacity : Nat) : FileCompressed := ⟨FileStream.new bytes, capacity⟩

/-- lines 89-110: `read_bytes`: the decoder reads to the end of the stream; a read error is returned. -/
def readBytes (c : FileCompressed) : Option (List UInt8) := do
  let (_, s) ← c.stream.seek (.start 0)
  let (b, _) ← s.read s.vec.length
  z.decomp b

/-- lines 112-124: `read`. -/
def read (c : FileCompressed) : Option (List (K × V)) :=
  match c.readBytes z with
  | none => none
  | some b => if b = [] then some [] else cd.dec b

/-- lines 129-182: `write`; `none` for the errors. -/
def write (c : FileCompressed) (l : List (K × V)) : Option FileCompressed :=
  if l = [] then do
    let s ← c.stream.resize 0
    pure { c with stream := s }
  else do
    let b ← cd.encode l
    if b.length > c.capacity then none
    else do
      let s ← c.stream.resize 0
      let (_, s) ← s.seek (.start 0)
      let (_, s) ← s.write (z.comp b)
      pure { c with stream := s }

/-- src/compression/building_block.rs 25-30 -/
def size (c : FileCompressed) : Nat := match c.readBytes z with
  | none => 0
  | some b => b.length

/-- src/compression/building_block.rs 36-43 -/
def contains [DecidableEq K] (c : FileCompressed) (k : K) : Bool := match c.read z cd with
  | none => false
  | some l => l.any (fun e => decide (e.1 = k))

/-- src/compression/building_block.rs 53-80: `take`. -/
def take [DecidableEq K] (c : FileCompressed) (k : K) : Res (Option (K × V) × FileCompressed) :=
  match c.read z cd with
  | none => .ok (none, c)
  | some l =>
    match findKey l k with
    | none => .ok (none, c)
    | some i => do
      let e ← Res.unwrap l[i]?
      let c ← Res.unwrap (c.write z cd (Byoc.swapRemove l i))
      pure (some e, c)

/-- src/compression/building_block.rs 92-151: `take_multiple`. -/
def takeMultiple [LinearOrder K] (c : FileCompressed) (ks : List K) :
    Res (List (K × V) × List K × FileCompressed) :=
  match c.read z cd with
  | none => .ok ([], ks, c)
  | some l => do
    let keys := sortKeys ks
    let m := Compressed.matchesOf keys 0 l
    let (out, l) ← Compressed.removeIdxs (m.map Prod.fst).reverse l
    let (_, keys) ← Compressed.removeIdxs ((m.map Prod.snd).insertionSort (· ≤ ·)).reverse keys
    if out = [] then pure (out, keys, c)
    else do
      let c ← Res.unwrap (c.write z cd l)
      pure (out, keys, c)

/-- src/compression/building_block.rs 170-213: `pop`. -/
def pop (srt : Sorter (K × V)) (c : FileCompressed) (n : Nat) :
    Res (List (K × V) × FileCompressed) :=
  match c.read z cd with
  | none => .ok ([], c)
  | some l =>
    if l = [] then .ok ([], c)
    else
      let l := srt.run l
      let (split, splitSize, _) := findCutAtSize cd.size n l
      if splitSize < n then
        match c.stream.resize 0 with
        | none => .ok ([], c)
        | some s => .ok (l, { c with stream := s })
      else do
        let c ← Res.unwrap (c.write z cd (l.take split))
        pure (l.drop split, c)

/-- src/compression/building_block.rs 232-314: `push`. -/
def push (srtU : Sorter (K × V)) (c : FileCompressed) (values : List (K × V)) :
    Res (List (K × V) × FileCompressed) :=
  match c.readBytes z with
  | none => .ok (values, c)
  | some bytes =>
    match (if bytes = [] then some [] else cd.dec bytes) with
    | none => .ok (values, c)
    | some vec =>
      match cd.encode values with
      | none => .ok (values, c)
      | some eb => do
        let totalSize := eb.length
        let room ← Res.sub c.capacity bytes.length
        if totalSize > c.capacity then
          let values := srtU.run values
          let (cut, _, _) := findCutAtSize cd.size (totalSize - c.capacity) values
          let c ← Res.unwrap (c.write z cd (values.take cut))
          pure (vec ++ values.drop cut, c)
        else if totalSize ≤ room then
          let c ← Res.unwrap (c.write z cd (vec ++ values))
          pure ([], c)
        else
          let vec := srtU.run vec
          let (cut, _, _) := findCutAtSize cd.size (totalSize - room) vec
          let c ← Res.unwrap (c.write z cd (vec.take cut ++ values))
          pure (vec.drop cut, c)

/-- src/compression/building_block.rs 326-338: `flush`. -/
def flush (c : FileCompressed) : Res (List (K × V) × FileCompressed) :=
  match c.read z cd with
  | none => .ok ([], c)
  | some l =>
    match c.stream.resize 0 with
    | none => .ok ([], c)
    | some s => .ok (l, { c with stream := s })

/-- src/compression/get.rs 94-107: `get`. -/
def get [DecidableEq K] (c : FileCompressed) (k : K) (_touch : V → V) :
    Res (Option V × FileCompressed) :=
  match c.read z cd with
  | none => .ok (none, c)
  | some l => .ok ((l.find? (fun e => decide (e.1 = k))).map Prod.snd, c)

/-- src/compression/get.rs 118-143 and 71-84: `get_mut`, writing `f v` in the cell and dropping it. -/
def getMut [DecidableEq K] (c : FileCompressed) (k : K) (f : V → V) :
    Res (Option V × FileCompressed) :=
  match c.read z cd with
  | none => .ok (none, c)
  | some l =>
    match findKey l k with
    | none => .ok (none, c)
    | some i => do
      let e ← Res.unwrap l[i]?
      let c ← Res.unwrap (c.write z cd (l.set i (e.1, f e.2)))
      pure (some e.2, c)

end FileCompressed

/-- src/compression/building_block.rs: `Compressed` on a file as a container. -/
def fileCompressed {K V : Type} [LinearOrder K] (z : Lz4) (cd : VecCodec (K × V))
    (srt srtU : Sorter (K × V)) : Block K V where
  State := FileCompressed
  capacity c := c.capacity
  size := FileCompressed.size z
  contains c k := .ok (c.contains z cd k, c)
  take := FileCompressed.take z cd
  takeMultiple := FileCompressed.takeMultiple z cd
  pop := FileCompressed.pop z cd srt
  push := FileCompressed.push z cd srtU
  flush := FileCompressed.flush z cd

/-- src/compression/get.rs -/
def fileCompressedGet {K V : Type} [LinearOrder K] (z : Lz4) (cd : VecCodec (K × V))
    (srt srtU : Sorter (K × V)) : GetOps (fileCompressed z cd srt srtU) where
  get := FileCompressed.get z cd
  getMut := FileCompressed.getMut z cd

end Byoc
