import Verif.Model.Unwind
import Verif.Model.Compressed

/-!
# `Stream` and `Compressed` when the user's functions panic

The functions of the user are `Serialize` and `Deserialize`, `eq` and `cmp` of keys and values.  A method is a computation
`Unwind.M`, with one place where the functions of the user are called for each part of the method that changes nothing in
between.  Streams are `VecStream`s and do not fail (see Model/Faults).

Simplifications: the iterator of `flush` is collected, a panic of a deserialisation ends it.  `keys` of `take_multiple`
are lost with a panic.  A cell whose `drop` panics during a panic aborts the process.
-/

namespace Byoc.Unwind

open M

variable {K V : Type}

/-- The user changes the value `x` of a cell to `f x`, or panics and leaves it as `half n x`: the cell is dropped by the
unwinding, which `save`s the value. -/
def M.useCell {σ : Type} (f : V → V) (half : Nat → V → V) (x : V) (save : V → σ → Res σ) : M σ V where
  run w s := match w with
    | [] => (some (f x), [], s)
    | none :: w => (some (f x), w, s)
    | some n :: w => (none, w, (match save (half n x) s with
      | .ok s' => s'
      | .panic => s))
  quiet _ := rfl
  det := by
    intro w s a w' s' h
    split at h <;> simp at h <;> simp [h.1, h.2]

/-! ## Compressed -/

section Compressed

variable (z : Lz4) (cd : VecCodec (K × V))

/-- src/compression/compression.rs 112-182: `read` (deserialise), then `write`: serialise, and only then change the
stream. -/
def compressedRewrite (l : List (K × V)) : M Compressed Unit := withState fun c => do
  user
  let c' ← ofRes (c.rewrite z cd l)
  set c'

/-- src/compression/building_block.rs 53-80. -/
def compressedTake [DecidableEq K] (k : K) : M Compressed (Option (K × V)) := withState fun c => do
  user
  match c.read z cd with
  | none => return none
  | some l => match findKey l k with
    | none => return none
    | some i => do
      let e ← ofRes (Res.unwrap l[i]?)
      compressedRewrite z cd (swapRemove l i)
      return some e

/-- src/compression/building_block.rs 92-151. -/
def compressedTakeMultiple [LinearOrder K] (ks : List K) : M Compressed (List (K × V) × List K) :=
  withState fun c => do
    user
    match c.read z cd with
    | none => return ([], ks)
    | some l => do
      user
      let keys := sortKeys ks
      let m := Compressed.matchesOf keys 0 l
      let (out, l) ← ofRes (Compressed.removeIdxs (m.map Prod.fst).reverse l)
      let (_, keys) ← ofRes (Compressed.removeIdxs ((m.map Prod.snd).insertionSort (· ≤ ·)).reverse keys)
      if out = [] then return (out, keys)
      else do
        compressedRewrite z cd l
        return (out, keys)

/-- src/compression/building_block.rs 170-213: the elements sorted are a copy in memory. -/
def compressedPop (srt : Sorter (K × V)) (n : Nat) : M Compressed (List (K × V)) := withState fun c => do
  user
  match c.read z cd with
  | none => return []
  | some l =>
    if l = [] then return []
    else do
      user
      let l := srt.run l
      let (split, splitSize, _) := findCutAtSize cd.size n l
      if splitSize < n then do
        set { c with stream := c.stream.resize 0 }
        return l
      else do
        compressedRewrite z cd (l.take split)
        return l.drop split

/-- src/compression/building_block.rs 232-314. -/
def compressedPush (srtU : Sorter (K × V)) (values : List (K × V)) : M Compressed (List (K × V)) :=
  withState fun c =>
    match c.readBytes z with
    | none => return values
    | some bytes => do
      user
      match (if bytes = [] then some [] else cd.dec bytes) with
      | none => return values
      | some vec => do
        user
        match cd.encode values with
        | none => return values
        | some eb => do
          let totalSize := eb.length
          let room ← ofRes (Res.sub c.capacity bytes.length)
          user
          if totalSize > c.capacity then do
            let values := srtU.run values
            let (cut, _, _) := findCutAtSize cd.size (totalSize - c.capacity) values
            compressedRewrite z cd (values.take cut)
            return vec ++ values.drop cut
          else if totalSize ≤ room then do
            compressedRewrite z cd (vec ++ values)
            return []
          else do
            let vec := srtU.run vec
            let (cut, _, _) := findCutAtSize cd.size (totalSize - room) vec
            compressedRewrite z cd (vec.take cut ++ values)
            return vec.drop cut

/-- src/compression/building_block.rs. -/
def compressed [LinearOrder K] (srt srtU : Sorter (K × V)) : Unwinding Compressed K V where
  contains k := withState fun c => do user; return c.contains z cd k
  take k := compressedTake z cd k
  takeMultiple ks := compressedTakeMultiple z cd ks
  pop n := compressedPop z cd srt n
  push l := compressedPush z cd srtU l
  flush := withState fun c => do
    user
    match c.read z cd with
    | none => return []
    | some l => do
      set { c with stream := c.stream.resize 0 }
      return l

/-- src/compression/get.rs 94-107. -/
def compressedGet [DecidableEq K] (k : K) : M Compressed (Option V) := withState fun c => do
  user
  match c.read z cd with
  | none => return none
  | some l => return (l.find? (fun e => decide (e.1 = k))).map Prod.snd

/-- src/compression/get.rs 71-84: the cell writes its elements on a shallow copy of the container. -/
def compressedSave (l : List (K × V)) (c : Compressed) : Res Compressed := do
  let c' ← c.rewrite z cd l
  pure { c with stream := { c.stream with vec := c'.stream.vec } }

/-- src/compression/get.rs 118-143 and 71-84: `get_mut`, the use of the cell, and its drop. -/
def compressedGetMut [DecidableEq K] (k : K) (f : V → V) (half : Nat → V → V) : M Compressed (Option V) :=
  withState fun c => do
    user
    match c.read z cd with
    | none => return none
    | some l => match findKey l k with
      | none => return none
      | some i => do
        let e ← ofRes (Res.unwrap l[i]?)
        let v ← useCell f half e.2 (fun v => compressedSave z cd (l.set i (e.1, v)))
        user
        let c' ← ofRes (compressedSave z cd (l.set i (e.1, v)) c)
        set c'
        return some e.2

end Compressed

/-! ## Stream -/

section Stream

variable (cd : Codec (K × V))

/-- src/stream/io_vec.rs 543-567: `swap_remove` of the chunk `j` of the stream `i` moves the stream, reads the chunk and
deserialises it; then it changes the stream. -/
def streamRemoveAt (i j : Nat) : M ByteStream (Option (K × V)) := withState fun s => do
  let o ← ofRes (Res.unwrap s.stream[i]?)
  let v ← ofRes (Res.unwrap o)
  set { s with stream := s.stream.set i (some
    { v with stream := (((v.stream.seek (.start (j * v.chunk))).2).read v.chunk).2 }) }
  user
  let r ← ofRes (ByteStream.removeAt cd s.stream i j)
  set { s with stream := r.2 }
  return r.1

/-- src/stream/building_block.rs 57-89. -/
def streamTake [DecidableEq K] (k : K) : M ByteStream (Option (K × V)) := withState fun s => do
  user
  match ← ofRes (ByteStream.findGo cd k 0 s.stream) with
  | none => return none
  | some (i, j) => do
    let item ← streamRemoveAt cd i j
    let e ← ofRes (Res.unwrap item)
    return some e

/-- src/stream/building_block.rs 149-155: the elements removed before a panic are dropped. -/
def streamRemoveAll : List (Nat × Nat) → M ByteStream (List (K × V))
  | [] => return []
  | (i, j) :: l => do
    match ← streamRemoveAt cd i j with
    | none => return []
    | some e => do
      let out ← streamRemoveAll l
      return e :: out

/-- src/stream/building_block.rs 127-157: deserialise and compare all, then remove. -/
def streamPop {R : Type} [LinearOrder R] (rank : V → R) (n : Nat) : M ByteStream (List (K × V)) :=
  withState fun s => do
    user
    let slots ← ofRes (ByteStream.allSlots cd rank 0 s.stream)
    let m ← ofRes ((KMin.new n : KMin (ByteStream.Slot R)).pushAll slots)
    streamRemoveAll cd (ByteStream.descending (m.items.map fun x => ofLex (ofLex x.1).2))

/-- src/stream/building_block.rs 169-196: `serialized_size`, then the stream is created, then the element is serialised and
appended; with a panic the elements that were not appended are dropped, and so are those to hand back. -/
def streamPushLoop : List (K × V) → Nat → M ByteStream (List (K × V))
  | [], _ => return []
  | e :: l, total => withState fun s => do
    user
    match cd.enc e with
    | none => do
      let out ← streamPushLoop l total
      return e :: out
    | some b => do
      let (i, c) ← ofRes (chunkSize b.length)
      if c + total > s.capacity then do
        let out ← streamPushLoop l total
        return e :: out
      else do
        let o ← ofRes (Res.unwrap s.stream[i]?)
        let v := o.getD ⟨VecStream.new, c⟩
        set { s with stream := s.stream.set i (some { v with stream := (v.stream.seek (.end 0)).2 }) }
        user
        let (ok, v) ← ofRes (v.append cd [e])
        set { s with stream := s.stream.set i (some v) }
        if ok then streamPushLoop l (total + c) else fail

/-- src/stream/building_block.rs. -/
def stream {R : Type} [LinearOrder K] [LinearOrder R] (rank : V → R) : Unwinding ByteStream K V where
  contains k := withState fun s => do user; ofRes (ByteStream.containsGo cd k s.stream)
  take k := streamTake cd k
  takeMultiple ks := withState fun s => do
    user
    let (out, ks', _) ← ofRes (s.takeMultiple cd ks)
    return (out, ks')
  pop n := streamPop cd rank n
  push l := withState fun s => streamPushLoop cd l s.size
  flush := withState fun s => do
    set { s with stream := s.stream.map fun _ => none }
    user
    ofRes (ByteStream.flushGo cd s.stream)

/-- src/stream/get.rs 71-83. -/
def streamGet [DecidableEq K] (k : K) : M ByteStream (Option V) := withState fun s => do
  user
  let r ← ofRes (s.get cd k id)
  return r.1

/-- src/stream/io_vec.rs 131-167: the cell writes its element at its place in stream `i`. -/
def streamSave (i j : Nat) (e : K × V) (s : ByteStream) : Res ByteStream := do
  let o ← Res.unwrap s.stream[i]?
  let v ← Res.unwrap o
  let v ← v.writeBack cd j e
  pure { s with stream := s.stream.set i (some v) }

/-- src/stream/get.rs 94-110, src/stream/io_vec.rs 131-167: `get_mut`, the use of the cell, and its drop. -/
def streamGetMut [DecidableEq K] (k : K) (f : V → V) (half : Nat → V → V) : M ByteStream (Option V) :=
  withState fun s => do
    user
    match ← ofRes (ByteStream.findGo cd k 0 s.stream) with
    | none => return none
    | some (i, j) => do
      let o ← ofRes (Res.unwrap s.stream[i]?)
      let es ← ofRes (ByteStream.items cd o)
      let e ← ofRes (Res.unwrap es[j]?)
      let v ← useCell f half e.2 (fun v => streamSave cd i j (e.1, v))
      user
      let s' ← ofRes (streamSave cd i j (e.1, v) s)
      set s'
      return some e.2

end Stream

/-! ## Any call -/

/-- A method call, or an access and the use of its cell. -/
inductive StoreCall (K V : Type) where
  | op (o : Op K V)
  | get (k : K)
  | getMut (k : K) (f : V → V) (half : Nat → V → V)

/-- What the caller sees. -/
inductive StoreAns (K V : Type) where
  | obs (o : Obs K V)
  | val (v : Option V)

/-- The methods with the accesses. -/
structure StoreUnwinding (S K V : Type) extends Unwinding S K V where
  get : K → M S (Option V)
  getMut : K → (V → V) → (Nat → V → V) → M S (Option V)

/-- A call during which the functions of the user do what `w` says. -/
def storeCall {S : Type} (U : StoreUnwinding S K V) : StoreCall K V → M S (StoreAns K V)
  | .op (.contains k) => do let b ← U.contains k; return .obs (.bool b)
  | .op (.take k) => do let o ← U.take k; return .obs (.opt o)
  | .op (.takeMultiple ks) => do let p ← U.takeMultiple ks; return .obs (.keyed p.1 p.2)
  | .op (.pop n) => do let l ← U.pop n; return .obs (.many l)
  | .op (.push l) => do let l ← U.push l; return .obs (.many l)
  | .op .flush => do let l ← U.flush; return .obs (.many l)
  | .get k => do let v ← U.get k; return .val v
  | .getMut k f half => do let v ← U.getMut k f half; return .val v

/-- A history in which the caller catches the panics (`none`) and goes on. -/
def storeCalls {S : Type} (U : StoreUnwinding S K V) (s : S) :
    List (StoreCall K V × Fates) → List (Option (StoreAns K V)) × S
  | [] => ([], s)
  | (c, w) :: l =>
    let r := (storeCall U c).run w s
    let rs := storeCalls U r.2.2 l
    (r.1 :: rs.1, rs.2)

/-- src/compression. -/
def compressedU [LinearOrder K] (z : Lz4) (cd : VecCodec (K × V)) (srt srtU : Sorter (K × V)) :
    StoreUnwinding Compressed K V :=
  { compressed z cd srt srtU with
    get := compressedGet z cd
    getMut := compressedGetMut z cd }

/-- src/stream. -/
def streamU {R : Type} [LinearOrder K] [LinearOrder R] (cd : Codec (K × V)) (rank : V → R) :
    StoreUnwinding ByteStream K V :=
  { stream cd rank with
    get := streamGet cd
    getMut := streamGetMut cd }

end Byoc.Unwind
