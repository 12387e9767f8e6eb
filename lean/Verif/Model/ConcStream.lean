import Verif.Model.Stream

/-!
# Model of a `Stream` shared by several threads

`DynBuildingBlock::from(Stream)` announces the container as concurrent (src/stream/stream.rs 118-127:
`DynBuildingBlock::new(stream, true)`), so that `into_concurrent()` (src/objsafe/building_block.rs
109-121) makes it a `DynConcurrent`, whose clones all call the methods of the one `Stream` through a raw
pointer (src/objsafe/concurrent.rs 60-92).  Nothing in `Stream` is a lock.  `take_multiple` is the
default of the trait, a loop of calls of `take` (src/traits/building_block.rs 80-82):
src/objsafe/building_block.rs 12-40 does not forward it.

Simplifications: the threads interleave between the accesses to the streams listed below, which are
whole (a reading of all the streams, the addition of one chunk, the removal of one chunk).  The program
does not even ensure that: two accesses at the same time are a data race, and undefined behaviour.  So
what goes wrong in this model goes wrong in the program, and what is proved of it is proved of the most
favourable execution of the program.  The streams are in memory (`VecStream`).  Results are sequences:
`flush`, whose iterator owns what it returns, is read at once.
-/

namespace Byoc.SharedStream

open ByteStream (allSlots Slot descending containsGo findGo removeAt)

variable {K V : Type}

/-- src/stream/building_block.rs 169-195: one iteration of the loop of `push`, with the local
`total_size`; the first result is what is added to `out`. -/
def pushOne (cd : Codec (K × V)) (e : K × V) (total : Nat) (s : ByteStream) :
    Res (List (K × V) × Nat × ByteStream) :=
  match cd.enc e with
  | none => .ok ([e], total, s)
  | some b => do
    let (i, c) ← chunkSize b.length
    if c + total > s.capacity then pure ([e], total, s)
    else do
      let o ← Res.unwrap s.stream[i]?
      let v := o.getD ⟨VecStream.new, c⟩
      let (ok, v) ← v.append cd [e]
      if ok then pure ([], total + c, { s with stream := s.stream.set i (some v) }) else .panic

/-- src/stream/building_block.rs 128-146: the first pass of `pop`: the places of the elements to remove,
in the order of their removal. -/
def popPlaces [LinearOrder V] (cd : Codec (K × V)) (s : ByteStream) (n : Nat) : Res (List (Nat × Nat)) := do
  let slots ← allSlots cd (id : V → V) 0 s.stream
  let m ← (KMin.new n : KMin (Slot V)).pushAll slots
  pure (descending (m.items.map fun x => ofLex (ofLex x.1).2))

/-- Where a thread is. -/
inductive Pc (K V : Type) where
  | idle
  /-- the call is made, nothing is done yet -/
  | start (o : Op K V)
  /-- in the loop of `push`: elements left, `total_size`, `out` -/
  | push (l todo : List (K × V)) (total : Nat) (out : List (K × V))
  /-- in `take` or `take_multiple`: keys left to take, elements taken -/
  | taking (o : Op K V) (todo : List K) (out : List (K × V))
  /-- in `take` of key `k`, found at place `(i, j)` -/
  | removing (o : Op K V) (k : K) (i j : Nat) (todo : List K) (out : List (K × V))
  /-- in the second pass of `pop`: places left, `ret` -/
  | pop (n : Nat) (todo : List (Nat × Nat)) (out : List (K × V))
  /-- about to return -/
  | ret (o : Op K V) (r : Obs K V)
  | dead

/-- The container and the threads. -/
structure State (K V : Type) where
  cont : ByteStream
  threads : List (Pc K V)

/-- `n` threads with a handle each on a container. -/
def State.new (c : ByteStream) (n : Nat) : State K V := ⟨c, List.replicate n .idle⟩

/-- What is observed. -/
inductive Ev (K V : Type) where
  | called (i : Nat) (o : Op K V)
  | returned (i : Nat) (o : Op K V) (r : Obs K V)
  | panicked (i : Nat) (o : Op K V)
  | silent (i : Nat)

/-- What a thread does: call a method, or the next step of its call. -/
inductive Act (K V : Type) where
  | call (o : Op K V)
  | go

/-- The result of `take` and of `take_multiple`, from the elements taken. -/
def result (o : Op K V) (out : List (K × V)) : Obs K V :=
  match o with
  | .takeMultiple ks => .keyed out ks
  | _ => .opt out.head?

section
variable [LinearOrder K] [LinearOrder V] (cd : Codec (K × V))

/-- First access of a call.  src/stream/building_block.rs 42-50, 59-73, 128-146, 167, 211-218. -/
def begin (s : ByteStream) : Op K V → Res (Pc K V × ByteStream)
  | .contains k => do
    let b ← containsGo cd k s.stream
    pure (.ret (.contains k) (.bool b), s)
  | .take k => pure (.taking (.take k) [k] [], s)
  | .takeMultiple ks => pure (.taking (.takeMultiple ks) ks [], s)
  | .pop n => do
    let ps ← popPlaces cd s n
    pure (.pop n ps [], s)
  | .push l => pure (.push l l s.size [], s)
  | .flush => do
    let (out, s) ← ByteStream.flush cd s
    pure (.ret .flush (.many out), s)

/-- Next step of a call; the first result says where the thread is then, or the call that panics.
src/stream/building_block.rs 57-89 (`take`: a scan, then `swap_remove`, panicking if there is nothing at
the place found), 147-156 (`pop`: returns what it has if there is nothing at a place), 169-197 (`push`). -/
def next (s : ByteStream) : Pc K V → Option ((Pc K V ⊕ Op K V) × ByteStream)
  | .idle => none
  | .dead => none
  | .ret _ _ => none
  | .start o =>
    match begin cd s o with
    | .ok (p, s) => some (.inl p, s)
    | .panic => some (.inr o, s)
  | .push l [] _ out => some (.inl (.ret (.push l) (.many out)), s)
  | .push l (e :: todo) total out =>
    match pushOne cd e total s with
    | .ok (o, total, s) => some (.inl (.push l todo total (out ++ o)), s)
    | .panic => some (.inr (.push l), s)
  | .taking o [] out => some (.inl (.ret o (result o out)), s)
  | .taking o (k :: todo) out =>
    match findGo cd k 0 s.stream with
    | .ok none => some (.inl (.taking o todo out), s)
    | .ok (some (i, j)) => some (.inl (.removing o k i j todo out), s)
    | .panic => some (.inr o, s)
  | .removing o _ i j todo out =>
    match removeAt cd s.stream i j with
    | .ok (some e, st) => some (.inl (.taking o todo (out ++ [e])), { s with stream := st })
    | .ok (none, st) => some (.inr o, { s with stream := st })
    | .panic => some (.inr o, s)
  | .pop n [] out => some (.inl (.ret (.pop n) (.many out)), s)
  | .pop n ((i, j) :: todo) out =>
    match removeAt cd s.stream i j with
    | .ok (some e, st) => some (.inl (.pop n todo (out ++ [e])), { s with stream := st })
    | .ok (none, st) => some (.inl (.ret (.pop n) (.many out)), { s with stream := st })
    | .panic => some (.inr (.pop n), s)

/-- One step of thread `i`. -/
def step (s : State K V) (i : Nat) (a : Act K V) : Option (State K V × Ev K V) :=
  match s.threads[i]?, a with
  | some .idle, .call o => some (⟨s.cont, s.threads.set i (.start o)⟩, .called i o)
  | some (.ret o r), .go => some (⟨s.cont, s.threads.set i .idle⟩, .returned i o r)
  | some p, .go =>
    match next cd s.cont p with
    | some (.inl p, c) => some (⟨c, s.threads.set i p⟩, .silent i)
    | some (.inr o, c) => some (⟨c, s.threads.set i .dead⟩, .panicked i o)
    | none => none
  | _, _ => none

/-- Runs of any length from state `s₀`. -/
inductive Run (s₀ : State K V) : List (Ev K V) → State K V → Prop where
  | nil : Run s₀ [] s₀
  | snoc {l s s' i a e} : Run s₀ l s → step cd s i a = some (s', e) → Run s₀ (l ++ [e]) s'

end
end Byoc.SharedStream
