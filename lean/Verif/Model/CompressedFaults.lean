import Verif.Model.Faults
import Verif.Model.Compressed

/-!
# `Compressed` containers when the operations of their stream fail

The methods of Model/Compressed with the treatment of errors of the code, on a stream whose operations have a fate
(Model/Faults: `Fate`, `Disk`, `M`).

Simplifications: the decoder reads a stream to its end with several calls of `read`: they have one fate together, a read that
is no error is not short.  The encoder writes the header of the frame, its blocks and its end with `write_all`, and `write`
flushes the stream at the end: these have one fate together too, `cut n` for an error after `n` bytes (all of the bytes if it is the
flush that fails).  Cloning a stream does not fail.  The error kind is never `Interrupted`.
-/

namespace Byoc.CompressedFaults

open Byoc.Faults Byoc.Faults.M

/-- The decoder, from the position of the stream to its end (src/compression/compression.rs 97-109). -/
def decode (z : Lz4) : M VecStream (List UInt8) := fun d s =>
  match d.reads with
  | .err :: t => (.err, { d with reads := t }, s)
  | fs => match z.decomp (s.vec.drop s.pos) with
    | none => (.err, { d with reads := fs.tail }, s)
    | some b => (.ok b, { d with reads := fs.tail }, s)

/-- The encoder, and the flush (src/compression/compression.rs 158-180): `buf` is the compressed frame. -/
def encode (buf : List UInt8) : M VecStream Unit := fun d s =>
  match d.writes with
  | .err :: t => (.err, { d with writes := t }, s)
  | .cut n :: t => (do let _ ← put (buf.take n); err) { d with writes := t } s
  | fs => (do let _ ← put buf; pure ()) { d with writes := fs.tail } s

/-- `self.stream` -/
def onStream {α : Type} (m : M VecStream α) : M Compressed α := fun d c =>
  match m d c.stream with
  | (o, d, s) => (o, d, { c with stream := s })

section
variable {K V : Type} (z : Lz4) (cd : VecCodec (K × V))

/-- src/compression/compression.rs 89-110 -/
def readBytes : M Compressed (List UInt8) := do
  let c ← get
  clone (do
    let _ ← seek (.start 0)
    decode z) c.stream

/-- src/compression/compression.rs 117-122, src/compression/building_block.rs 240-247 -/
def parse (b : List UInt8) : Option (List (K × V)) := if b = [] then some [] else cd.dec b

/-- src/compression/compression.rs 112-124 -/
def read : M Compressed (List (K × V)) := do
  let b ← readBytes z
  match parse cd b with
  | none => err
  | some l => pure l

/-- src/compression/compression.rs 129-182 -/
def write (l : List (K × V)) : M Compressed Unit :=
  if l = [] then onStream (resize 0)
  else match cd.encode l with
    | none => err
    | some b => do
      let c ← get
      if b.length > c.capacity then err
      else do
        onStream (resize 0)
        let _ ← onStream (seek (.start 0))
        onStream (encode (z.comp b))

/-- src/compression/building_block.rs 25-30 -/
def size : M Compressed Nat := do
  match ← attempt (readBytes z) with
  | none => pure 0
  | some b => pure b.length

/-- src/compression/building_block.rs 36-43 -/
def contains [DecidableEq K] (k : K) : M Compressed Bool := do
  match ← attempt (read z cd) with
  | none => pure false
  | some l => pure (l.any (fun e => decide (e.1 = k)))

/-- src/compression/building_block.rs 53-80: `take`. -/
def take [DecidableEq K] (k : K) : M Compressed (Option (K × V)) := do
  match ← attempt (read z cd) with
  | none => pure none
  | some l =>
    match findKey l k with
    | none => pure none
    | some i => do
      let e ← ofRes (Res.unwrap l[i]?)
      expect (write z cd (swapRemove l i))
      pure (some e)

/-- src/compression/building_block.rs 92-151: `take_multiple`. -/
def takeMultiple [LinearOrder K] (ks : List K) : M Compressed (List (K × V) × List K) := do
  match ← attempt (read z cd) with
  | none => pure ([], ks)
  | some l => do
    let m := Compressed.matchesOf (sortKeys ks) 0 l
    let (out, l) ← ofRes (Compressed.removeIdxs (m.map Prod.fst).reverse l)
    let (_, keys) ← ofRes (Compressed.removeIdxs ((m.map Prod.snd).insertionSort (· ≤ ·)).reverse (sortKeys ks))
    if out = [] then pure (out, keys)
    else do
      expect (write z cd l)
      pure (out, keys)

/-- src/compression/building_block.rs 170-213: `pop`. -/
def pop (srt : Sorter (K × V)) (n : Nat) : M Compressed (List (K × V)) := do
  match ← attempt (read z cd) with
  | none => pure []
  | some l =>
    if l = [] then pure []
    else
      let l := srt.run l
      let (split, splitSize, _) := findCutAtSize cd.size n l
      if splitSize < n then do
        match ← attempt (onStream (resize 0)) with
        | none => pure []
        | some _ => pure l
      else do
        expect (write z cd (l.take split))
        pure (l.drop split)

/-- src/compression/building_block.rs 265-309: what is written and what is returned. -/
def split (srtU : Sorter (K × V)) (cap totalSize room : Nat) (vec values : List (K × V)) :
    List (K × V) × List (K × V) :=
  if totalSize > cap then
    let values := srtU.run values
    let (cut, _, _) := findCutAtSize cd.size (totalSize - cap) values
    (values.take cut, vec ++ values.drop cut)
  else if totalSize ≤ room then (vec ++ values, [])
  else
    let vec := srtU.run vec
    let (cut, _, _) := findCutAtSize cd.size (totalSize - room) vec
    (vec.take cut ++ values, vec.drop cut)

/-- src/compression/building_block.rs 232-314: `push`. -/
def push (srtU : Sorter (K × V)) (values : List (K × V)) : M Compressed (List (K × V)) := do
  match ← attempt (readBytes z) with
  | none => pure values
  | some bytes =>
    match parse cd bytes with
    | none => pure values
    | some vec =>
      match cd.encode values with
      | none => pure values
      | some eb => do
        let c ← get
        let room ← ofRes (Res.sub c.capacity bytes.length)
        let (inVec, outVec) := split cd srtU c.capacity eb.length room vec values
        expect (write z cd inVec)
        pure outVec

/-- src/compression/building_block.rs 322-334: `flush`. -/
def flush : M Compressed (List (K × V)) := do
  match ← attempt (read z cd) with
  | none => pure []
  | some l => do
    match ← attempt (onStream (resize 0)) with
    | none => pure []
    | some _ => pure l

/-- src/compression/get.rs 94-107: `get`. -/
def get' [DecidableEq K] (k : K) : M Compressed (Option V) := do
  match ← attempt (read z cd) with
  | none => pure none
  | some l => pure ((l.find? (fun e => decide (e.1 = k))).map Prod.snd)

/-- src/compression/compression.rs 81-87: a shallow copy: its stream shares the bytes with the container, it has a position of its own. -/
def onCopy {α : Type} (m : M Compressed α) : M Compressed α := fun d c =>
  match m d c with
  | (o, d, c') => (o, d, { c with stream := { c.stream with vec := c'.stream.vec } })

/-- src/compression/get.rs 118-143 and 71-84: `get_mut`, writing `f v` in the cell and dropping it. -/
def getMut [DecidableEq K] (k : K) (f : V → V) : M Compressed (Option V) := do
  match ← attempt (read z cd) with
  | none => pure none
  | some l =>
    match findKey l k with
    | none => pure none
    | some i => do
      let e ← ofRes (Res.unwrap l[i]?)
      onCopy (expect (write z cd (l.set i (e.1, f e.2))))
      pure (some e.2)

end

/-! ## Histories -/

/-- The calls. -/
inductive Req (K V : Type) where
  | size
  | contains (k : K)
  | take (k : K)
  | takeMultiple (ks : List K)
  | pop (n : Nat)
  | push (l : List (K × V))
  | flush
  | get (k : K)
  | getMut (k : K) (f : V → V)

/-- What a call returns. -/
inductive Ans (K V : Type) where
  | nat (n : Nat)
  | bool (b : Bool)
  | opt (o : Option (K × V))
  | keyed (l : List (K × V)) (ks : List K)
  | many (l : List (K × V))
  | val (o : Option V)
deriving DecidableEq

/-- One call. -/
def call {K V : Type} [LinearOrder K] (z : Lz4) (cd : VecCodec (K × V)) (srt srtU : Sorter (K × V)) :
    Req K V → M Compressed (Ans K V)
  | .size => do let n ← size z; pure (.nat n)
  | .contains k => do let b ← contains z cd k; pure (.bool b)
  | .take k => do let o ← take z cd k; pure (.opt o)
  | .takeMultiple ks => do let (l, ks) ← takeMultiple z cd ks; pure (.keyed l ks)
  | .pop n => do let l ← pop z cd srt n; pure (.many l)
  | .push l => do let out ← push z cd srtU l; pure (.many out)
  | .flush => do let l ← flush z cd; pure (.many l)
  | .get k => do let o ← get' z cd k; pure (.val o)
  | .getMut k f => do let o ← getMut z cd k f; pure (.val o)

/-- A history of calls: the user catches the panics and goes on. -/
def run {K V : Type} [LinearOrder K] (z : Lz4) (cd : VecCodec (K × V)) (srt srtU : Sorter (K × V)) :
    List (Req K V) → Disk → Compressed → List (Out (Ans K V)) × Disk × Compressed
  | [], d, s => ([], d, s)
  | c :: cs, d, s =>
    match call z cd srt srtU c d s with
    | (o, d, s) =>
      match run z cd srt srtU cs d s with
      | (os, d, s) => (o :: os, d, s)

end Byoc.CompressedFaults
