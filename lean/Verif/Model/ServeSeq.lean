import Verif.Model.Sequential
import Verif.Model.Socket

/-!
# A `Sequential` shared by server threads and local threads

src/socket/server_thread.rs 362-376 is the usage (there in a test): the container is a `Sequential`, the
server has a clone of it, and other clones are used by other threads.  Each thread of the model of
`Sequential` (Model/Sequential.lean) is either a local thread or a server thread connected to one client.

A server thread waits for a request (server_thread.rs 208, server.rs 123-134), makes the call of the
container it stands for (server.rs 74-97), whose steps interleave with those of the other threads, and
sends what the call returned (server_thread.rs 226).  If the call panics the thread unwinds: it drops its
clone and its stream, so that the client's `receive` fails and its call panics (src/socket/building_block.rs
and src/socket/client.rs: `process_request`).

Simplifications: a message is sent or received in one step, and none is lost, cut or timed out (the bytes,
and what a slow network does, are in Model/Socket.lean and C43; reconnections are in Model/Server.lean
and C44, C58, C59).
-/

namespace Byoc.ServeSeq

open Byoc.Seq
open Byoc.Socket (Request Response accepts)

variable {K V : Type}

/-- server.rs 74-97: the call a request stands for. -/
def callOf : Request K V → SCall K V
  | .capacity => .capacity
  | .size => .size
  | .contains k => .op (.contains k)
  | .take k => .op (.take k)
  | .takeMultiple ks => .op (.takeMultiple ks)
  | .pop n => .op (.pop n)
  | .push l => .op (.push l)
  | .flush => .op .flush

/-- server.rs 74-97: the response made of what the call returned.  The keys left by `take_multiple` are
dropped (lines 87-89).  `none`: not a result of this call. -/
def respOf : Request K V → SObs K V → Option (Response K V)
  | .capacity, .num n => some (.capacity n)
  | .size, .num n => some (.size n)
  | .contains _, .obs (.bool b) => some (.contains b)
  | .take _, .obs (.opt o) => some (.take o)
  | .takeMultiple _, .obs (.keyed out _) => some (.takeMultiple out)
  | .pop _, .obs (.many out) => some (.pop out)
  | .push _, .obs (.many out) => some (.push out)
  | .flush, .obs (.many out) => some (.flush out)
  | _, _ => none

/-- What is at the other end of a thread. -/
inductive End (K V : Type) where
  /-- nothing: a local thread -/
  | here
  /-- a client that waits for nothing -/
  | quiet
  /-- a client whose request `r` is on its way -/
  | sent (r : Request K V)
  /-- the thread answers `r` -/
  | busy (r : Request K V)
  /-- the answer is on its way -/
  | back (r : Request K V) (a : Response K V)
  /-- the thread panicked while answering `r` -/
  | lost (r : Request K V)
  /-- the client panicked -/
  | gone

/-- The shared container and its threads, and the other end of each thread. -/
structure Node (K V S : Type) where
  seq : SState K V S
  ends : List (End K V)

/-- A `Sequential` over `s` shared by `n` threads, of which the ones for which `remote` holds are server
threads with a client connected. -/
def Node.new {S : Type} (s : S) (n : Nat) (remote : Nat → Bool) : Node K V S :=
  ⟨.new s n, (List.range n).map fun i => if remote i then .quiet else .here⟩

inductive NEv (K V : Type) where
  /-- the client of thread `i` makes a call -/
  | asked (i : Nat) (r : Request K V)
  /-- the client's call returns -/
  | got (i : Nat) (r : Request K V) (a : Response K V)
  /-- the client's call panics: the response has another kind (src/socket/building_block.rs 7-9) -/
  | mismatch (i : Nat) (r : Request K V)
  /-- the client's call panics: the server thread is gone -/
  | failed (i : Nat) (r : Request K V)
  /-- a step of a thread on the shared container -/
  | inner (e : SEv K V)

inductive NAct (K V : Type) where
  /-- what a local thread does -/
  | act (a : SAct K V)
  /-- the client calls -/
  | ask (r : Request K V)
  /-- the server thread receives the request and makes the call -/
  | serve
  /-- the server thread goes on with its call; if it returns, the response is sent -/
  | go
  /-- the server thread, which panicked, unwinds -/
  | unwind
  /-- the client receives the response -/
  | deliver
  /-- the client finds that the connection is closed -/
  | hangup

variable {S : Type}

def Node.setEnd (s : Node K V S) (i : Nat) (e : End K V) : Node K V S := { s with ends := s.ends.set i e }

/-- The other end of a thread that answers `r`, after event `e` of that thread: server.rs 74-97,
server_thread.rs 208-226. -/
def after (r : Request K V) : SEv K V → End K V
  | .returned _ _ o | .skipped _ _ o => match respOf r o with
    | some a => .back r a
    | none => .lost r
  | .panicked _ _ => .lost r
  | _ => .busy r

/-- One step of thread `i` or of its client. -/
def nstep (C : Container K V) (s : Node K V C.block.State) (i : Nat) (a : NAct K V) :
    Option (Node K V C.block.State × NEv K V) :=
  match s.ends[i]?, a with
  | some .here, .act a => match sstep C s.seq i a with
    | some (q, e) => some ({ s with seq := q }, .inner e)
    | none => none
  | some .quiet, .ask r => some (s.setEnd i (.sent r), .asked i r)
  | some (.sent r), .serve => match sstep C s.seq i (.call (callOf r)) with
    | some (q, e) => some ({ s with seq := q }.setEnd i (.busy r), .inner e)
    | none => none
  | some (.busy r), .go => match sstep C s.seq i .go with
    | some (q, e) => some ({ s with seq := q }.setEnd i (after r e), .inner e)
    | none => none
  | some (.back r x), .deliver =>
    -- src/socket/building_block.rs 11-81
    if accepts r x then some (s.setEnd i .quiet, .got i r x) else some (s.setEnd i .gone, .mismatch i r)
  | some (.lost r), .hangup => some (s.setEnd i .gone, .failed i r)
  | some (.lost _), .unwind => match sstep C s.seq i .unwind with
    | some (q, e) => some ({ s with seq := q }, .inner e)
    | none => none
  | some .gone, .unwind => match sstep C s.seq i .unwind with
    | some (q, e) => some ({ s with seq := q }, .inner e)
    | none => none
  | _, _ => none

/-- Runs of any length from state `s₀`. -/
inductive NRun (C : Container K V) (s₀ : Node K V C.block.State) :
    List (NEv K V) → Node K V C.block.State → Prop where
  | nil : NRun C s₀ [] s₀
  | snoc {l s s' i a e} : NRun C s₀ l s → nstep C s i a = some (s', e) → NRun C s₀ (l ++ [e]) s'

end Byoc.ServeSeq
