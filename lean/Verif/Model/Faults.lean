import Verif.Model.Stream

/-!
# `Stream` containers when the operations of their streams fail

`Stream` and `StreamFactory` are traits of the user (src/stream/mod.rs): a stream is anything that is `Read + Write +
Seek + Resize + Clone`, such as a file on a disk that fills up or fails.  Here each operation on a stream has a *fate*: it
succeeds, it returns an error, or, for a read or a write, it transfers fewer bytes than asked, which `std::io::Read` and
`std::io::Write` allow.  An operation that returns an error has no effect (as the traits require).

The methods are the ones of Model/Stream, with the treatment of errors of the code.  A method returns, returns an
`IOError` (`?`, `return Err`), or panics, and leaves the streams in the state they have at this point.

Simplifications: cloning a stream and creating one do not fail (see C33, C79, C104 for files); the error kind is never
`Interrupted`, which `BufWriter` retries.
-/

namespace Byoc.Faults

/-- What an operation on a stream does.  For `seek` and `resize`, `cut` is `ok`. -/
inductive Fate where
  | ok
  | err
  /-- at most this number of bytes are transferred -/
  | cut (n : Nat)
deriving DecidableEq

/-- The fates of the operations to come, of each kind in its order.  At the end of a list all operations succeed. -/
structure Disk where
  seeks : List Fate := []
  reads : List Fate := []
  writes : List Fate := []
  resizes : List Fate := []
deriving DecidableEq

/-- How a function ends: `IOResult`, or a panic. -/
inductive Out (α : Type) where
  | ok (a : α)
  | err
  | panic
deriving DecidableEq

/-- A function on a state `σ`, and the state it leaves however it ends. -/
def M (σ α : Type) : Type := Disk → σ → Out α × Disk × σ

namespace M

variable {σ τ α β : Type}

/-- `?` and unwinding. -/
protected def bind (m : M σ α) (f : α → M σ β) : M σ β := fun d s =>
  match m d s with
  | (.ok a, d, s) => f a d s
  | (.err, d, s) => (.err, d, s)
  | (.panic, d, s) => (.panic, d, s)

instance : Monad (M σ) where
  pure a := fun d s => (.ok a, d, s)
  bind := M.bind

/-- `return Err(…)` -/
def err : M σ α := fun d s => (.err, d, s)

/-- `panic!()` -/
def panic : M σ α := fun d s => (.panic, d, s)

def get : M σ σ := fun d s => (.ok s, d, s)

/-- The result of a function as a value. -/
def attempt (m : M σ α) : M σ (Option α) := fun d s =>
  match m d s with
  | (.ok a, d, s) => (.ok (some a), d, s)
  | (.err, d, s) => (.ok none, d, s)
  | (.panic, d, s) => (.panic, d, s)

/-- `unwrap()` or `expect()` of a result. -/
def expect (m : M σ α) : M σ α := fun d s =>
  match m d s with
  | (.ok a, d, s) => (.ok a, d, s)
  | (.err, d, s) => (.panic, d, s)
  | (.panic, d, s) => (.panic, d, s)

/-- Functions without stream operations. -/
def ofRes (r : Res α) : M σ α := fun d s =>
  match r with
  | .ok a => (.ok a, d, s)
  | .panic => (.panic, d, s)

/-- On a clone, dropped at the end (only used to read). -/
def clone (m : M τ α) (t : τ) : M σ α := fun d s =>
  match m d t with
  | (o, d, _) => (o, d, s)

end M

open M

/-! ## Operations of a stream -/

/-- `Seek::seek` -/
def seek (w : SeekFrom) : M VecStream Nat := fun d s =>
  match d.seeks with
  | .err :: t => (.err, { d with seeks := t }, s)
  | fs => (.ok (s.seek w).1, { d with seeks := fs.tail }, (s.seek w).2)

/-- `Read::read` into `n` bytes. -/
def read (n : Nat) : M VecStream (List UInt8) := fun d s =>
  match d.reads with
  | .err :: t => (.err, { d with reads := t }, s)
  | .cut m :: t => (.ok (s.read (min m n)).1, { d with reads := t }, (s.read (min m n)).2)
  | fs => (.ok (s.read n).1, { d with reads := fs.tail }, (s.read n).2)

/-- What `Write::write` does when it succeeds. -/
def put (buf : List UInt8) : M VecStream Nat := fun d s =>
  match s.write buf with
  | .ok (n, s) => (.ok n, d, s)
  | .panic => (.panic, d, s)

/-- `Write::write` -/
def write (buf : List UInt8) : M VecStream Nat := fun d s =>
  match d.writes with
  | .err :: t => (.err, { d with writes := t }, s)
  | .cut m :: t => put (buf.take m) { d with writes := t } s
  | fs => put buf { d with writes := fs.tail } s

/-- `Resize::resize` -/
def resize (n : Nat) : M VecStream Unit := fun d s =>
  match d.resizes with
  | .err :: t => (.err, { d with resizes := t }, s)
  | fs => (.ok (), { d with resizes := fs.tail }, s.resize n)

/-! ## IOVec -/

/-- `BufReader::read` into `n` bytes; returns the bytes and the new content of the buffer. -/
def bufRead (buf : List UInt8) (n : Nat) : M VecStream (List UInt8 × List UInt8) :=
  if buf = [] ∧ bufCap ≤ n then do
    let b ← read n
    pure (b, [])
  else if buf = [] then do
    let buf ← read bufCap
    pure (buf.take n, buf.drop n)
  else pure (buf.take n, buf.drop n)

section
variable {O : Type} (cd : Codec O)

/-- src/stream/io_vec.rs 28-44, 298-309: `IOVecIter::next` until `None` or until an element satisfies `p` (the
adaptors stop there).  `fuel` bounds the number of chunks. -/
def scanGo (p : O → Bool) (c : Nat) : Nat → List UInt8 → M VecStream (List O)
  | 0, _ => pure []
  | fuel + 1, buf => do
    let (b, buf) ← bufRead buf c
    if b.length < c then pure []
    else match cd.dec b with
      | none => panic
      | some o =>
        if p o then pure [o]
        else do
          let os ← scanGo p c fuel buf
          pure (o :: os)

/-- lines 616-621 and 303: `iter()` and its use: a failed seek and a failed read panic. -/
def scan {σ : Type} (p : O → Bool) (v : IOVec) : M σ (List O) :=
  clone (expect (do
    let _ ← seek (.start 0)
    scanGo cd p v.chunk (v.stream.vec.length + 1) [])) v.stream

/-- How `append` of a vector of one element ends: `Ok`, `Err` with the element still in the vector, `Err` with the
vector emptied. -/
inductive Appended where
  | done
  | kept
  | gone
deriving DecidableEq

/-- `BufWriter::flush_buf`, called when the `BufWriter` is dropped; errors are ignored there.  The loop writes what is
left after a short write; a write of no byte is an error. -/
def drain : Nat → List UInt8 → M VecStream Unit
  | 0, _ => pure ()
  | fuel + 1, buf =>
    if buf = [] then pure ()
    else do
      match ← attempt (write buf) with
      | none => pure ()
      | some n => if n = 0 then pure () else drain fuel (buf.drop n)

/-- lines 519-536 and 68-74: `append` of a vector of one element, as `push` calls it.  A chunk smaller than the buffer
of the `BufWriter` is written when the `BufWriter` is dropped, a larger one at once, and the number of bytes written is
ignored. -/
def append (c : Nat) (o : O) : M VecStream Appended := do
  match ← attempt (seek (.end 0)) with
  | none => pure .kept
  | some _ =>
    match IOVec.chunkOf cd c o with
    | none => pure .gone
    | some ch =>
      if ch.length < bufCap then do
        drain (ch.length + 1) ch
        pure .done
      else do
        match ← attempt (write ch) with
        | none => pure .gone
        | some _ => pure .done

/-- lines 577-601: copy the last chunk at `pos`, unless `pos` is the last chunk; `e` is the end of the stream. -/
def moveLast (c pos e : Nat) : M VecStream Unit :=
  if pos < e - c then do
    let _ ← seek (.start (e - c))
    let last ← read c
    if last.length < c then panic
    else do
      let _ ← seek (.start pos)
      let _ ← write last
      pure ()
  else pure ()

/-- lines 553-566: the item of the chunk read. -/
def itemOf (c : Nat) (b : List UInt8) : M VecStream (Option O) :=
  if b.length < c then pure none
  else match cd.dec b with
    | none => err
    | some o => pure (some o)

/-- lines 543-613: `swap_remove`. -/
def swapRemove (c n : Nat) : M VecStream (Option O) := do
  let _ ← seek (.start (n * c))
  let b ← read c
  let item ← itemOf cd c b
  let e ← seek (.end 0)
  if e < c then pure none
  else do
    moveLast c (n * c) e
    expect (resize (e - c))
    pure item

end

/-! ## ByteStream -/

section
variable {K V : Type} (cd : Codec (K × V))

/-- src/stream/building_block.rs 26-36: the size of the streams: a failed seek counts for 0. -/
def sizeGo {σ : Type} : List (Option IOVec) → M σ Nat
  | [] => pure 0
  | none :: l => sizeGo l
  | some v :: l => do
    let n ← attempt (clone (seek (.end 0)) v.stream)
    let m ← sizeGo l
    pure (n.getD 0 + m)

/-- src/stream/building_block.rs 26-36 -/
def size : M ByteStream Nat := do
  let s ← get
  sizeGo s.stream

/-- src/stream/building_block.rs 42-50 -/
def containsGo {σ : Type} [DecidableEq K] (k : K) : List (Option IOVec) → M σ Bool
  | [] => pure false
  | none :: l => containsGo k l
  | some v :: l => do
    let es ← scan cd (fun e => decide (e.1 = k)) v
    if es.any (fun e => decide (e.1 = k)) then pure true else containsGo k l

/-- src/stream/building_block.rs 42-50 -/
def contains [DecidableEq K] (k : K) : M ByteStream Bool := do
  let s ← get
  containsGo cd k s.stream

/-- src/stream/building_block.rs 59-73 -/
def findGo {σ : Type} [DecidableEq K] (k : K) : Nat → List (Option IOVec) → M σ (Option (Nat × Nat))
  | _, [] => pure none
  | i, none :: l => findGo k (i + 1) l
  | i, some v :: l => do
    let es ← scan cd (fun e => decide (e.1 = k)) v
    match findKey es k with
    | some j => pure (some (i, j))
    | none => findGo k (i + 1) l

/-- `self.stream[i].as_mut().unwrap()` and an operation of its that depends on its chunk size. -/
def onStream {α : Type} (i : Nat) (m : Nat → M VecStream α) : M ByteStream α := fun d s =>
  match s.stream[i]? with
  | some (some v) =>
    match m v.chunk d v.stream with
    | (o, d, vs) => (o, d, { s with stream := s.stream.set i (some { v with stream := vs }) })
  | _ => (.panic, d, s)

/-- src/stream/building_block.rs 57-89: `take`. -/
def take [DecidableEq K] (k : K) : M ByteStream (Option (K × V)) := do
  let s ← get
  match ← findGo cd k 0 s.stream with
  | none => pure none
  | some (i, j) => do
    match ← attempt (onStream i (fun c => swapRemove cd c j)) with
    | some (some e) => pure (some e)
    | _ => panic

/-- src/stream/building_block.rs 131-139: what the streams push in the `KMin`. -/
def slotsGo {σ R : Type} (rank : V → R) : Nat → List (Option IOVec) → M σ (List (ByteStream.Slot R × Nat))
  | _, [] => pure []
  | i, none :: l => slotsGo rank (i + 1) l
  | i, some v :: l => do
    let es ← scan cd (fun _ => false) v
    let rest ← slotsGo rank (i + 1) l
    pure (ByteStream.slots rank i v.chunk 0 es ++ rest)

/-- src/stream/building_block.rs 149-156: an error ends the loop. -/
def removeAll : List (Nat × Nat) → M ByteStream (List (K × V))
  | [] => pure []
  | (i, j) :: l => do
    match ← attempt (onStream i (fun c => swapRemove cd c j)) with
    | some (some e) => do
      let out ← removeAll l
      pure (e :: out)
    | _ => pure []

/-- src/stream/building_block.rs 127-157: `pop`, for values ordered by their rank. -/
def pop {R : Type} [LinearOrder R] (rank : V → R) (n : Nat) : M ByteStream (List (K × V)) := do
  let s ← get
  let slots ← slotsGo cd rank 0 s.stream
  let m ← ofRes ((KMin.new n : KMin (ByteStream.Slot R)).pushAll slots)
  removeAll cd (ByteStream.descending (m.items.map fun x => ofLex (ofLex x.1).2))

/-- src/stream/building_block.rs 185-188: open the stream of a size class. -/
def openStream (i c : Nat) : M ByteStream Unit := fun d s =>
  match s.stream[i]? with
  | some none => (.ok (), d, { s with stream := s.stream.set i (some ⟨VecStream.new, c⟩) })
  | some (some _) => (.ok (), d, s)
  | none => (.panic, d, s)

/-- src/stream/building_block.rs 169-196: the loop of `push`. -/
def pushLoop : List (K × V) → Nat → M ByteStream (List (K × V))
  | [], _ => pure []
  | e :: l, total =>
    match cd.enc e with
    | none => do
      let out ← pushLoop l total
      pure (e :: out)
    | some b => do
      let (i, c) ← ofRes (chunkSize b.length)
      let s ← get
      if c + total > s.capacity then do
        let out ← pushLoop l total
        pure (e :: out)
      else do
        openStream i c
        match ← onStream i (fun c => append cd c e) with
        | .done => pushLoop l (total + c)
        | .kept => do
          let out ← pushLoop l total
          pure (e :: out)
        | .gone => panic -- line 194: `value.pop().unwrap()` on the emptied vector

/-- src/stream/building_block.rs 165-198: `push`. -/
def push (l : List (K × V)) : M ByteStream (List (K × V)) := do
  let total ← size
  pushLoop cd l total

end

/-! ## Histories -/

/-- The calls. -/
inductive Req (K V : Type) where
  | contains (k : K)
  | take (k : K)
  | pop (n : Nat)
  | push (l : List (K × V))

/-- What a call returns; `none` in `run` for a panic. -/
inductive Ans (K V : Type) where
  | bool (b : Bool)
  | opt (o : Option (K × V))
  | many (l : List (K × V))
deriving DecidableEq

/-- One call. -/
def call {K V R : Type} [DecidableEq K] [LinearOrder R] (cd : Codec (K × V)) (rank : V → R) :
    Req K V → M ByteStream (Ans K V)
  | .contains k => do let b ← contains cd k; pure (.bool b)
  | .take k => do let o ← take cd k; pure (.opt o)
  | .pop n => do let l ← pop cd rank n; pure (.many l)
  | .push l => do let out ← push cd l; pure (.many out)

/-- A history of calls: the user catches the panics and goes on. -/
def run {K V R : Type} [DecidableEq K] [LinearOrder R] (cd : Codec (K × V)) (rank : V → R) :
    List (Req K V) → Disk → ByteStream → List (Out (Ans K V)) × Disk × ByteStream
  | [], d, s => ([], d, s)
  | c :: cs, d, s =>
    match call cd rank c d s with
    | (o, d, s) =>
      match run cd rank cs d s with
      | (os, d, s) => (o :: os, d, s)

end Byoc.Faults
