import Verif.Model.Faults

/-!
# `get`, `get_mut`, `take_multiple` and `flush` of `Stream` containers when the operations of their streams fail

The other methods are in Model/Faults, and the fates of the operations are the same.

Simplifications: `bincode::serialize_into` writes the fields one after the other with `write_all`; here it is one
`write_all` of all the bytes, and several writes correspond to short writes of it.  A value that does not serialise is not
written at all.  The iterator returned by `flush` is consumed to its end.
-/

namespace Byoc.CellFaults

open Byoc.Faults (Fate Disk Out M)
open Byoc.Faults.M

/-! ## IOVec -/

section
variable {O : Type} (cd : Codec O)

/-- A seek on another handle, of which only the success counts. -/
def seekAside : M VecStream Unit := fun d s =>
  match d.seeks with
  | .err :: t => (.err, { d with seeks := t }, s)
  | fs => (.ok (), { d with seeks := fs.tail }, s)

/-- src/stream/io_vec.rs 345-387: `IOVecIterMut::next` until `None` or until an element satisfies `p`.  After each
element, lines 131-135 ask for the position of its handle and lines 361-365 move the handle of the next one. -/
def scanMutGo (p : O → Bool) (c : Nat) : Nat → List UInt8 → M VecStream (List O)
  | 0, _ => pure []
  | fuel + 1, buf => do
    let (b, buf) ← Faults.bufRead buf c
    if b.length < c then pure []
    else match cd.dec b with
      | none => panic
      | some o => do
        seekAside
        seekAside
        if p o then pure [o]
        else do
          let os ← scanMutGo p c fuel buf
          pure (o :: os)

/-- lines 631-636 and 371-385: `iter_mut()` and its use: errors panic. -/
def scanMut {σ : Type} (p : O → Bool) (v : IOVec) : M σ (List O) :=
  clone (expect (do
    let _ ← Faults.seek (.start 0)
    scanMutGo cd p v.chunk (v.stream.vec.length + 1) [])) v.stream

/-- `Write::write_all`: a short write goes on, a write of no byte is an error. -/
def writeAll : Nat → List UInt8 → M VecStream Unit
  | 0, _ => pure ()
  | fuel + 1, buf =>
    if buf = [] then pure ()
    else do
      let n ← Faults.write buf
      if n = 0 then err else writeAll fuel (buf.drop n)

/-- lines 151-167: the drop of a cell that was modified: `o` is written at the position of its chunk; errors panic. -/
def dropCell (c j : Nat) (o : O) : M VecStream Unit := do
  let _ ← expect (Faults.seek (.start (j * c)))
  match cd.enc o with
  | none => panic
  | some b => expect (writeAll (b.length + 1) b)

end

/-! ## ByteStream -/

section
variable {K V : Type} (cd : Codec (K × V))

/-- The search of `get` (src/stream/get.rs 72-82) and of `get_mut` (lines 94-109), with the iteration `sc` of each: the
index of the stream, the index in the stream, the element. -/
def lookGo {σ : Type} [DecidableEq K] (sc : (K × V → Bool) → IOVec → M σ (List (K × V))) (k : K) :
    Nat → List (Option IOVec) → M σ (Option (Nat × Nat × (K × V)))
  | _, [] => pure none
  | i, none :: l => lookGo sc k (i + 1) l
  | i, some v :: l => do
    let es ← sc (fun e => decide (e.1 = k)) v
    match findKey es k with
    | none => lookGo sc k (i + 1) l
    | some j =>
      match es[j]? with
      | none => panic
      | some e => pure (some (i, j, e))

/-- src/stream/get.rs 71-83 -/
def get [DecidableEq K] (k : K) : M ByteStream (Option V) := do
  let s ← M.get
  let o ← lookGo (Faults.scan cd) k 0 s.stream
  pure (o.map fun x => x.2.2.2)

/-- An operation of the handle of a cell: it shares the bytes of stream `i`, not the position. -/
def onCell {α : Type} (i : Nat) (m : Nat → M VecStream α) : M ByteStream α := fun d s =>
  match s.stream[i]? with
  | some (some v) =>
    match m v.chunk d v.stream with
    | (o, d, vs) => (o, d, { s with stream := s.stream.set i (some { v with stream := { v.stream with vec := vs.vec } }) })
  | _ => (.panic, d, s)

/-- src/stream/get.rs 93-110: `get_mut` and the cell until its drop: the cell is read, or written with `f`. -/
def getMut [DecidableEq K] (k : K) (f : Option (V → V)) : M ByteStream (Option V) := do
  let s ← M.get
  match ← lookGo (scanMut cd) k 0 s.stream with
  | none => pure none
  | some (i, j, e) =>
    match f with
    | none => pure (some e.2)
    | some f => do
      onCell i (fun c => dropCell cd c j (e.1, f e.2))
      pure (some e.2)

/-- src/stream/building_block.rs 102-110: the loop on the elements of one stream, left when all keys are found. -/
def gatherGo [LinearOrder K] (c : Nat) : Nat → List UInt8 → List K → M VecStream (List (K × V) × List K)
  | 0, _, ks => pure ([], ks)
  | fuel + 1, buf, ks => do
    let (b, buf) ← Faults.bufRead buf c
    if b.length < c then pure ([], ks)
    else match cd.dec b with
      | none => panic
      | some e =>
        match bsearch ks e.1 with
        | none => gatherGo c fuel buf ks
        | some i =>
          if ks.eraseIdx i = [] then pure ([e], ks.eraseIdx i)
          else do
            let r ← gatherGo c fuel buf (ks.eraseIdx i)
            pure (e :: r.1, r.2)

/-- src/stream/building_block.rs 101-112 -/
def gatherAll {σ : Type} [LinearOrder K] : List (Option IOVec) → List K → M σ (List (K × V) × List K)
  | [], ks => pure ([], ks)
  | none :: l, ks => gatherAll l ks
  | some v :: l, ks => do
    let r ← clone (expect (do
      let _ ← Faults.seek (.start 0)
      gatherGo cd v.chunk (v.stream.vec.length + 1) [] ks)) v.stream
    let q ← gatherAll l r.2
    pure (r.1 ++ q.1, q.2)

/-- src/stream/building_block.rs 98-114 -/
def takeMultiple [LinearOrder K] (ks : List K) : M ByteStream (List (K × V) × List K) := do
  let s ← M.get
  gatherAll cd s.stream (sortKeys ks)

/-- src/stream/io_vec.rs 253-264 and 624-626: the iteration of the streams taken, each from its position. -/
def emptyGo {σ : Type} : List (Option IOVec) → M σ (List (K × V))
  | [] => pure []
  | none :: l => emptyGo l
  | some v :: l => do
    let es ← clone (expect (Faults.scanGo cd (fun _ => false) v.chunk (v.stream.vec.length + 1) [])) v.stream
    let rest ← emptyGo l
    pure (es ++ rest)

/-- src/stream/building_block.rs 211-218: `flush`: the streams leave the container first. -/
def flush : M ByteStream (List (K × V)) := fun d s =>
  emptyGo cd s.stream d { s with stream := s.stream.map fun _ => none }

end

/-! ## Histories -/

/-- The calls: the ones of Model/Faults and the four of this file. -/
inductive Req (K V : Type) where
  | base (c : Faults.Req K V)
  | get (k : K)
  /-- the cell is only read (`none`), or written with a function -/
  | getMut (k : K) (f : Option (V → V))
  | takeMultiple (ks : List K)
  | flush

/-- What a call returns. -/
inductive Ans (K V : Type) where
  | base (a : Faults.Ans K V)
  | val (o : Option V)
  | taken (out : List (K × V)) (left : List K)
deriving DecidableEq

/-- One call. -/
def call {K V R : Type} [LinearOrder K] [LinearOrder R] (cd : Codec (K × V)) (rank : V → R) :
    Req K V → M ByteStream (Ans K V)
  | .base c => do let a ← Faults.call cd rank c; pure (.base a)
  | .get k => do let o ← get cd k; pure (.val o)
  | .getMut k f => do let o ← getMut cd k f; pure (.val o)
  | .takeMultiple ks => do let r ← takeMultiple cd ks; pure (.taken r.1 r.2)
  | .flush => do let l ← flush cd; pure (.base (.many l))

/-- A history of calls: the user catches the panics and goes on. -/
def run {K V R : Type} [LinearOrder K] [LinearOrder R] (cd : Codec (K × V)) (rank : V → R) :
    List (Req K V) → Disk → ByteStream → List (Out (Ans K V)) × Disk × ByteStream
  | [], d, s => ([], d, s)
  | c :: cs, d, s =>
    match call cd rank c d s with
    | (o, d, s) =>
      match run cd rank cs d s with
      | (os, d, s) => (o :: os, d, s)

end Byoc.CellFaults
