import Verif.Model.Sequential
import Verif.Model.Get
import Verif.Model.Compressed

/-!
# Model of the cells of a `Sequential` shared by several threads

src/sequential/get.rs, src/array/get.rs, src/btree/get.rs, src/batch/get.rs, src/associative/get.rs,
src/exclusive/get.rs, src/compression/get.rs.

Model/Sequential.lean has the calls, but not what a thread does with a cell it holds.  Here a cell is a value of
its own: what it shows is looked up when it is dereferenced, a write goes where the cell points to at that time, and
dropping the cell is two steps.  `SequentialCell` has a `drop` method that unlocks (get.rs 34-38); its fields,
and so the cell of the wrapped container, are dropped *after* this method returned.

Each thread owns one clone, which a cell borrows, so that a thread holding a cell makes no call before
it dropped the cell (a program thread with two clones is two threads here).

Simplifications: as in Model/Sequential.lean, and: dereferencing, writing through a cell, and what dropping the
wrapped cell does are one step each, although nothing makes them atomic; a thread does not panic while it holds a
cell, other than when dropping it.
-/

namespace Byoc

variable {K V : Type}

/-- The cells of a container (`Get::Target`, `GetMut::Target`): `get` and `get_mut`, `Deref::deref` (`none`: nothing
is there any more), an assignment through `DerefMut::deref_mut`, and `Drop::drop`. -/
structure Cells (B : Block K V) : Type 1 where
  Cell : Type
  get : B.State → K → Res (Option Cell × B.State)
  getMut : B.State → K → Res (Option Cell × B.State)
  deref : B.State → Cell → Option V
  write : B.State → Cell → V → Cell × B.State
  drop : B.State → Cell → Res B.State

/-- src/array/get.rs: a cell (8-10, 28-30) is a pointer to the value, that is a position in the vector; dropping it
does nothing. -/
def arrayHandles [LinearOrder K] (sz : K × V → Nat) (srt srtS : Sorter (K × V)) :
    Cells (arrayBlock sz srt srtS) where
  Cell := Nat
  get (a : Array K V) k := .ok (findKey a.values k, a)
  getMut (a : Array K V) k := .ok (findKey a.values k, a)
  deref (a : Array K V) i := a.values[i]?.map Prod.snd
  write (a : Array K V) i v := (i, { a with values := a.values.modify i fun e => (e.1, v) })
  drop a _ := .ok a

/-- src/btree/get.rs: the cell (12-15) owns the element, taken out of the container by `get_mut` (42-49) and
`get` (55-57), and puts it back when dropped (30-36). -/
def btreeHandles [LinearOrder K] [LinearOrder V] (sz : K × V → Nat) : Cells (btreeBlock (V := V) sz) where
  Cell := K × V
  get (t : BTree K V) k := t.take sz k
  getMut (t : BTree K V) k := t.take sz k
  deref _ c := some c.2
  write t c v := ((c.1, v), t)
  drop (t : BTree K V) c := do
    let (out, t) ← t.push sz [c]
    if out = [] then return t else .panic

/-- src/batch/get.rs 16-18 and 34-36: `find_map`; the cell is the one of the first container that has the key. -/
def batchOpen {S P : Type} (op : S → K → Res (Option P × S)) : List S → K → Res (Option (Nat × P) × List S)
  | [], _ => .ok (none, [])
  | c :: cs, k => do
    let (o, c) ← op c k
    match o with
    | some p => return (some (0, p), c :: cs)
    | none => do
      let (o, cs) ← batchOpen op cs k
      return (o.map fun x => (x.1 + 1, x.2), c :: cs)

/-- src/batch/get.rs. -/
def batchHandles {C : Block K V} (X : Cells C) : Cells (batch C) where
  Cell := Nat × X.Cell
  get := batchOpen X.get
  getMut := batchOpen X.getMut
  deref (s : List C.State) c := s[c.1]?.bind fun x => X.deref x c.2
  write (s : List C.State) c v := match s[c.1]? with
    | none => (c, s)
    | some x => ((c.1, (X.write x c.2 v).1), s.set c.1 (X.write x c.2 v).2)
  drop (s : List C.State) c := match s[c.1]? with
    | none => .ok s
    | some x => do
      let x ← X.drop x c.2
      return s.set c.1 x

/-- src/associative/get.rs 13-16 and 27-30. -/
def associativeOpen {S P : Type} (hash : K → Nat) (op : S → K → Res (Option P × S)) (s : List S) (k : K) :
    Res (Option (Nat × P) × List S) := do
  let i ← Associative.set hash s.length k
  let c ← Res.unwrap s[i]?
  let (o, c) ← op c k
  return (o.map fun p => (i, p), s.set i c)

/-- src/associative/get.rs. -/
def associativeHandles (hash : K → Nat) {C : Block K V} (X : Cells C) : Cells (associative hash C) where
  Cell := Nat × X.Cell
  get := associativeOpen hash X.get
  getMut := associativeOpen hash X.getMut
  deref (s : List C.State) c := s[c.1]?.bind fun x => X.deref x c.2
  write (s : List C.State) c v := match s[c.1]? with
    | none => (c, s)
    | some x => ((c.1, (X.write x c.2 v).1), s.set c.1 (X.write x c.2 v).2)
  drop (s : List C.State) c := match s[c.1]? with
    | none => .ok s
    | some x => do
      let x ← X.drop x c.2
      return s.set c.1 x

/-- src/exclusive/get.rs 12-24 and 34-46: the cell is the one of the front container. -/
def exclusiveOpen (F B : Block K V) {P : Type} (op : F.State → K → Res (Option P × F.State))
    (s : F.State × B.State) (k : K) : Res (Option P × (F.State × B.State)) := do
  let (b, fr) ← F.contains s.1 k
  if b then
    let (o, fr) ← op fr k
    return (o, (fr, s.2))
  let (b, s) ← exclusiveDowngrade F B (fr, s.2) k
  if b then
    let (o, fr) ← op s.1 k
    return (o, (fr, s.2))
  else return (none, s)

/-- src/exclusive/get.rs. -/
def exclusiveHandles [LinearOrder K] {F B : Block K V} (X : Cells F) : Cells (exclusive F B) where
  Cell := X.Cell
  get := exclusiveOpen F B X.get
  getMut := exclusiveOpen F B X.getMut
  deref (s : F.State × B.State) c := X.deref s.1 c
  write (s : F.State × B.State) c v := ((X.write s.1 c v).1, ((X.write s.1 c v).2, s.2))
  drop (s : F.State × B.State) c := do
    let f ← X.drop s.1 c
    return (f, s.2)

/-- src/flush_stopper/get.rs: the cells of the wrapped container. -/
def flushStopperHandles {C : Block K V} (X : Cells C) : Cells (flushStopper C) where
  Cell := X.Cell
  get := X.get
  getMut := X.getMut
  deref := X.deref
  write := X.write
  drop := X.drop

/-- src/compression/get.rs: a cell of `get` (11-13, 94-107) is a copy of the value; a cell of `get_mut` (27-36,
118-143) is a copy of all the elements, the index of the one asked for and whether it was written (65-68); dropping it
(71-84) replaces what is stored by its elements if it was.  The cell shares the bytes of the stream, not its position.
Simplification: cells of `get`, which are never written, have the form of those of `get_mut`. -/
def compressedHandles [LinearOrder K] (z : Lz4) (cd : VecCodec (K × V)) (srt srtU : Sorter (K × V)) :
    Cells (compressed z cd srt srtU) where
  Cell := List (K × V) × Nat × Bool
  get (c : Compressed) k := match c.read z cd with
    | none => .ok (none, c)
    | some l => .ok ((findKey l k).map fun i => (l, i, false), c)
  getMut (c : Compressed) k := match c.read z cd with
    | none => .ok (none, c)
    | some l => .ok ((findKey l k).map fun i => (l, i, false), c)
  deref _ p := p.1[p.2.1]?.map Prod.snd
  write c p v := ((p.1.modify p.2.1 fun e => (e.1, v), p.2.1, true), c)
  drop (c : Compressed) p := if p.2.2 then do
      let c' ← c.rewrite z cd p.1
      return { c with stream := { c.stream with vec := c'.stream.vec } }
    else .ok c

namespace SeqCells

open Lock (Mode)
open Byoc.Seq (SCall)

/-- A result. -/
inductive CObs (K V P : Type) where
  | num (n : Nat)
  | obs (o : Obs K V)
  | cell (c : Option P)

/-- The container's method. -/
def exec {B : Block K V} (X : Cells B) : SCall K V → B.State → Res (CObs K V X.Cell × B.State)
  | .capacity, s => .ok (.num (B.capacity s), s)
  | .size, s => .ok (.num (B.size s), s)
  | .op o, s => do let (r, s') ← B.observe s o; pure (.obs r, s')
  | .get k, s => do let (r, s') ← X.get s k; pure (.cell r, s')
  | .getMut k, s => do let (r, s') ← X.getMut s k; pure (.cell r, s')

/-- Where a thread is (see `Seq.Pc`). -/
inductive Pc (K V S P : Type) where
  | idle
  | start (c : SCall K V)
  | locked (c : SCall K V)
  | inside (c : SCall K V) (snap : S)
  | leaving (c : SCall K V) (r : CObs K V P)
  | closing (c : SCall K V) (r : CObs K V P)
  /-- holds a cell obtained with `get(k)` (`shared`) or `get_mut(k)` (`excl`) -/
  | cell (m : Mode) (k : K) (p : P)
  /-- dropping the cell: the lock is released, the wrapped cell is not dropped yet -/
  | dropping (k : K) (p : P)
  | dead (h : Option Mode)

/-- The outer lock, the inner lock, the container, the threads (see `Seq.SState`). -/
structure CState (K V S P : Type) where
  oReaders : Nat
  oWriter : Bool
  oPoison : Bool
  iReaders : Nat
  iWriter : Bool
  iPoison : Bool
  cont : S
  threads : List (Pc K V S P)

/-- sequential.rs 58-67: a new `Sequential` over `s` and `n` threads with a clone each. -/
def CState.new {S P : Type} (s : S) (n : Nat) : CState K V S P :=
  ⟨0, false, false, 0, false, false, s, List.replicate n .idle⟩

inductive CEv (K V P : Type) where
  | called (i : Nat) (c : SCall K V)
  | silent (i : Nat)
  /-- the container's method completed with result `r` -/
  | executed (i : Nat) (c : SCall K V) (r : CObs K V P)
  | returned (i : Nat) (c : SCall K V) (r : CObs K V P)
  | skipped (i : Nat) (c : SCall K V)
  | panicked (i : Nat) (c : SCall K V)
  /-- a cell obtained for `k` is dereferenced and shows `v` -/
  | read (i : Nat) (k : K) (v : Option V)
  /-- `v` is written through a cell obtained for `k` -/
  | wrote (i : Nat) (k : K) (v : V)
  /-- the cell for `k` is dropped -/
  | dropped (i : Nat) (k : K)
  /-- dropping the cell for `k` panicked -/
  | dropPanicked (i : Nat) (k : K)

variable {S P : Type}

/-- Take the outer lock (`h = none`: and release it at once). -/
def CState.acquire (s : CState K V S P) : Option Mode → CState K V S P
  | none => s
  | some .shared => { s with oReaders := s.oReaders + 1 }
  | some .excl => { s with oWriter := true }

/-- Release the outer lock. -/
def CState.release (s : CState K V S P) : Option Mode → CState K V S P
  | none => s
  | some .shared => { s with oReaders := s.oReaders - 1 }
  | some .excl => { s with oWriter := false }

/-- Drop the guard of the inner lock. -/
def CState.dropGuard (s : CState K V S P) (write : Bool) : CState K V S P :=
  if write then { s with iWriter := false } else { s with iReaders := s.iReaders - 1 }

def CState.setPc (s : CState K V S P) (i : Nat) (p : Pc K V S P) : CState K V S P :=
  { s with threads := s.threads.set i p }

/-- What a thread does. -/
inductive CAct (K V : Type) where
  | call (c : SCall K V)
  /-- next step of the call, or of dropping a cell -/
  | go
  /-- dereference the cell held -/
  | deref
  /-- write through the cell held -/
  | write (v : V)
  /-- begin to drop the cell held -/
  | dropCell
  /-- a panicking thread drops its clone of the `Sequential` -/
  | unwind

/-- One step of thread `i`; as `Seq.sstep` but for the cells. -/
def cstep {B : Block K V} (X : Cells B) (s : CState K V B.State X.Cell) (i : Nat) (a : CAct K V) :
    Option (CState K V B.State X.Cell × CEv K V X.Cell) :=
  match s.threads[i]?, a with
  | some .idle, .call c => some (s.setPc i (.start c), .called i c)
  | some (.start c), .go =>
    if s.oPoison then
      match c.onPoison with
      | some _ => some (s.setPc i .idle, .skipped i c)
      | none => some (s.setPc i (.dead none), .panicked i c)
    else
      match c.mode with
      | .shared =>
        if s.oWriter then none else some ((s.acquire c.holding).setPc i (.locked c), .silent i)
      | .excl =>
        if s.oWriter ∨ s.oReaders ≠ 0 then none
        else some ((s.acquire c.holding).setPc i (.locked c), .silent i)
  | some (.locked c), .go =>
    if s.iPoison then some (s.setPc i (.dead c.holding), .panicked i c)
    else if c.write then
      if s.iWriter ∨ s.iReaders ≠ 0 then some (s.setPc i (.dead c.holding), .panicked i c)
      else some ({ s with iWriter := true }.setPc i (.inside c s.cont), .silent i)
    else
      if s.iWriter then some (s.setPc i (.dead c.holding), .panicked i c)
      else some ({ s with iReaders := s.iReaders + 1 }.setPc i (.inside c s.cont), .silent i)
  | some (.inside c snap), .go =>
    match exec X c snap with
    | .panic =>
      some ({ s.dropGuard c.write with iPoison := s.iPoison || c.write }.setPc i (.dead c.holding),
        .panicked i c)
    | .ok (r, t) =>
      some ({ s with cont := if c.write then t else s.cont }.setPc i (.leaving c r), .executed i c r)
  | some (.leaving c r), .go =>
    match c, r with
    -- get.rs 73-76, 94-97: the cell keeps the outer lock
    | .get k, .cell (some p) => some ((s.dropGuard c.write).setPc i (.cell .shared k p), .returned i c r)
    | .getMut k, .cell (some p) => some ((s.dropGuard c.write).setPc i (.cell .excl k p), .returned i c r)
    | _, _ => some ((s.release c.holding).setPc i (.closing c r), .silent i)
  | some (.closing c r), .go => some ((s.dropGuard c.write).setPc i .idle, .returned i c r)
  -- get.rs 40-48: no lock is taken, the cell has it
  | some (.cell _ k p), .deref => some (s, .read i k (X.deref s.cont p))
  -- get.rs 50-57: only a cell obtained with `get_mut`
  | some (.cell .excl k p), .write v =>
    some ({ s with cont := (X.write s.cont p v).2 }.setPc i (.cell .excl k (X.write s.cont p v).1), .wrote i k v)
  -- get.rs 34-38: unlock …
  | some (.cell m k p), .dropCell => some ((s.release (some m)).setPc i (.dropping k p), .silent i)
  -- … then the field `value` is dropped
  | some (.dropping k p), .go =>
    match X.drop s.cont p with
    | .panic => some (s.setPc i (.dead none), .dropPanicked i k)
    | .ok t => some ({ s with cont := t }.setPc i .idle, .dropped i k)
  | some (.dead h), .unwind => some ({ s with oPoison := true }.setPc i (.dead h), .silent i)
  | _, _ => none

/-- Runs of any length from state `s₀`. -/
inductive CRun {B : Block K V} (X : Cells B) (s₀ : CState K V B.State X.Cell) :
    List (CEv K V X.Cell) → CState K V B.State X.Cell → Prop where
  | nil : CRun X s₀ [] s₀
  | snoc {l s s' i a e} : CRun X s₀ l s → cstep X s i a = some (s', e) → CRun X s₀ (l ++ [e]) s'

end SeqCells
end Byoc
