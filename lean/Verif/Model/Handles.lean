import Verif.Model.Lock

/-!
# Model of reference counted handles: `FileStream` and `DynConcurrent`

Both use an `RWLock` as a reference counter.  Each handle runs its own calls, one at a time, as
sequences of atomic steps of the lock (Model/Lock.lean); the steps of all handles interleave in any
order.  Simplification: two threads calling `clone` on the *same* handle at the same time are not
modelled (calls on different handles are).
-/

namespace Byoc.Handles

open Lock

/-- What a handle is doing. -/
inductive Phase where
  | live
  /-- in `clone`, file_stream.rs 60 -/
  | cloning
  /-- in `do_not_delete`, file_stream.rs 47 -/
  | keeping
  /-- in `drop`, file_stream.rs 78 -/
  | unlocking
  /-- in `drop`, file_stream.rs 80 -/
  | trying
  /-- dropped -/
  | gone
deriving DecidableEq, Repr

structure Handle where
  th : Th
  phase : Phase
deriving DecidableEq, Repr

/-- A new handle: its shared access to the lock is already taken. -/
def Handle.new : Handle := ⟨⟨.idle, 1, false⟩, .live⟩

inductive HAct where
  | clone
  | doNotDelete
  | drop
  /-- run the next atomic step of the current call -/
  | run (spurious : Bool)
  /-- the `rc` field of a dropped handle is dropped by a panicking thread (lock.rs 73-79) -/
  | panicDrop
deriving DecidableEq, Repr

inductive HEv where
  | silent
  | cloned
  | kept
  /-- `clone` or `do_not_delete` panics (`unwrap` of a poisoned lock) -/
  | panicked
  /-- `drop` returns and has called `remove_file` -/
  | removed
  /-- `drop` returns without removing the file -/
  | dropped
deriving DecidableEq, Repr

/-- file_stream.rs 45-49 (`do_not_delete`), 55-67 (`clone`), 70-90 (`drop`), one atomic step. -/
def stepHandle (w : Nat) (h : Handle) : HAct → Option (Nat × Handle × HEv)
  | .clone =>
    if h.phase = .live then
      (stepTh w h.th (.acquire .shared true)).map fun r => (r.1, ⟨r.2.1, .cloning⟩, .silent)
    else none
  | .doNotDelete =>
    if h.phase = .live then
      (stepTh w h.th (.acquire .shared true)).map fun r => (r.1, ⟨r.2.1, .keeping⟩, .silent)
    else none
  | .drop =>
    if h.phase = .live then
      (stepTh w h.th .release).map fun r => (r.1, ⟨r.2.1, .unlocking⟩, .silent)
    else none
  | .panicDrop =>
    if h.phase = .gone then
      (stepTh w h.th .panicDrop).map fun r => (r.1, ⟨r.2.1, .gone⟩, .silent)
    else none
  | .run sp =>
    match stepTh w h.th (.run sp) with
    | none => none
    | some (w', t', e) =>
      match h.phase with
      | .cloning =>
        match e with
        -- the new access goes to the new handle
        | .acquired _ => some (w', ⟨{ t' with readers := t'.readers - 1 }, .live⟩, .cloned)
        | .silent => some (w', ⟨t', .cloning⟩, .silent)
        | _ => some (w', ⟨t', .live⟩, .panicked)
      | .keeping =>
        match e with
        -- the new access is never given back
        | .acquired _ => some (w', ⟨{ t' with readers := t'.readers - 1 }, .live⟩, .kept)
        | .silent => some (w', ⟨t', .keeping⟩, .silent)
        | _ => some (w', ⟨t', .live⟩, .panicked)
      | .unlocking =>
        match e with
        -- line 80: call `try_lock_mut`
        | .released => some (w', ⟨{ t' with pc := .load .excl false }, .trying⟩, .silent)
        | _ => some (w', ⟨t', .unlocking⟩, .silent)
      | .trying =>
        match e with
        -- lines 83-85
        | .acquired _ => some (w', ⟨t', .gone⟩, .removed)
        | .silent => some (w', ⟨t', .trying⟩, .silent)
        | _ => some (w', ⟨t', .gone⟩, .dropped)
      | .live => none
      | .gone => none

/-- The shared lock word, the handles (dropped ones included), how many accesses `do_not_delete` took,
and how many times `remove_file` was called. -/
structure FState where
  word : Nat
  handles : List Handle
  kept : Nat
  removed : Nat
deriving DecidableEq, Repr

/-- file_stream.rs 30-42: `FileStream::new` -/
def FState.new : FState := ⟨1, [Handle.new], 0, 0⟩

/-- Handle `i` takes action `a`. -/
def fstep (s : FState) (i : Nat) (a : HAct) : Option (FState × HEv) :=
  match s.handles[i]? with
  | none => none
  | some h =>
    (stepHandle s.word h a).map fun r =>
      (⟨r.1,
        s.handles.set i r.2.1 ++ (if r.2.2 = .cloned then [Handle.new] else []),
        s.kept + (if r.2.2 = .kept then 1 else 0),
        s.removed + (if r.2.2 = .removed then 1 else 0)⟩, r.2.2)

/-- Shared accesses taken or being given back. -/
def FState.shared (s : FState) : Nat := (s.handles.map fun h => h.th.sharedCount).sum + s.kept

/-- Runs of any length; fewer than `2 ^ 62` handles at any time (the lock's counter has 62 bits). -/
inductive FRun : FState → List (Nat × HAct × HEv) → FState → Prop where
  | nil (s) : FRun s [] s
  | cons {s s' s'' i a e l} : fstep s i a = some (s', e) → s'.shared < 2 ^ 62 →
      FRun s' l s'' → FRun s ((i, a, e) :: l) s''

/-! ## DynConcurrent -/

/-- src/objsafe/concurrent.rs 23-35: the lock word and, for each handle, whether it is live or where
it is in `drop`; `freed` counts how many times the container was freed. -/
structure DState where
  word : Nat
  handles : List (Th × Bool)
  freed : Nat
deriving DecidableEq, Repr

/-- concurrent.rs 28-35: `new` locks once. -/
def DState.new : DState := ⟨1, [(Th.new, true)], 0⟩

inductive DAct where
  /-- 52-57: `clone` does not touch the counter -/
  | clone
  /-- any method: dereferences the container -/
  | use
  /-- 39-46 -/
  | drop
  | run (spurious : Bool)
  /-- the `rc` field of a dropped handle is dropped by a panicking thread -/
  | panicDrop
deriving DecidableEq, Repr

/-- concurrent.rs 38-57, one atomic step of handle `i`. -/
def dstep (s : DState) (i : Nat) (a : DAct) : Option DState :=
  match s.handles[i]? with
  | none => none
  | some (t, live) =>
    match a with
    | .clone => if live then some { s with handles := s.handles ++ [(Th.new, true)] } else none
    | .use => if live then some s else none
    | .drop =>
      if live then (stepTh s.word t (.acquire .excl false)).map fun r =>
        { s with word := r.1, handles := s.handles.set i (r.2.1, false) }
      else none
    | .panicDrop =>
      if live then none else (stepTh s.word t .panicDrop).map fun r =>
        { s with word := r.1, handles := s.handles.set i (r.2.1, false) }
    | .run sp =>
      if live then none else (stepTh s.word t (.run sp)).bind fun r =>
        match r.2.2 with
        -- 41-44: free the container, then unlock
        | .acquired _ => (stepTh r.1 r.2.1 .release).map fun q =>
            { word := q.1, handles := s.handles.set i (q.2.1, false), freed := s.freed + 1 }
        | _ => some { s with word := r.1, handles := s.handles.set i (r.2.1, false) }

inductive DRun : DState → List (Nat × DAct) → DState → Prop where
  | nil (s) : DRun s [] s
  | cons {s s' s'' i a l} : dstep s i a = some s' → DRun s' l s'' → DRun s ((i, a) :: l) s''

end Byoc.Handles
