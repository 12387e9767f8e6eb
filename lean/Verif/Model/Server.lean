import Verif.Model.Socket

/-!
# Model of the server thread: src/socket/server_thread.rs 187-246

The environment (clients, network, operating system, the handle of the thread) decides the outcome of
each blocking operation; the model is the thread's reaction.  Reading and writing are at the level of
whole messages (`Model/Socket.lean` has the bytes of one connection).
-/

namespace Byoc.Socket

variable {K V : Type}

/-- Outcomes of `Request::receive` as src/socket/error.rs 44-79 tells them apart. -/
inductive ReadOutcome (K V : Type) where
  | request (r : Request K V)
  /-- lines 47-65 -/
  | encoding (e : BincodeErrorKind)
  /-- line 67: the client closed the connection -/
  | eof
  /-- lines 68-69 -/
  | timedOut
  /-- lines 70-72: any other IO error, e.g. the client reset the connection -/
  | ioError
  /-- lines 74-76 -/
  | custom

/-- Outcomes of `Response::send`. -/
inductive WriteOutcome where
  | sent
  | encoding
  | eof
  | timedOut
  /-- any other IO error, e.g. broken pipe: the client closed the connection -/
  | ioError
deriving DecidableEq

/-- Where the thread is. -/
inductive Pc (K V : Type) where
  /-- line 198 -/
  | check
  /-- line 208 -/
  | read
  /-- line 226 -/
  | write (r : Response K V)
  /-- after the loop -/
  | stopped
  | panicked

/-- What went over connection number `conn` (0 is the first one). -/
inductive Traffic (K V : Type) where
  | got (conn : Nat) (r : Option (Request K V))
  | sent (conn : Nat) (r : Response K V)

structure Server (C : Block K V) where
  cont : C.State
  /-- line 181: `None` is unlimited -/
  persistent : Option Nat
  /-- the current connection; 0 is the one accepted by `SocketServer::new` -/
  conn : Nat := 0
  /-- the current stream has a read timeout (line 193); `try_reconnect` (server.rs 104-110) sets none -/
  hasTimeout : Bool := true
  pc : Pc K V := .check
  traffic : List (Traffic K V) := []

/-- What the environment does to a blocking operation.  `accept` is whether listening and accepting a new
connection works, should it be tried. -/
inductive SEv (K V : Type) where
  /-- line 198: whether the thread is told to stop (or its handle is gone) -/
  | check (stop : Bool)
  | read (o : ReadOutcome K V) (accept : Bool)
  | write (o : WriteOutcome) (accept : Bool) (again : WriteOutcome)

variable {C : Block K V}

/-- server_thread.rs 37-59 and server.rs 104-110. -/
def Server.tryReconnect (s : Server C) (accept : Bool) : Bool × Server C :=
  match s.persistent with
  | none => if accept then (true, { s with conn := s.conn + 1, hasTimeout := false }) else (false, s)
  | some 0 => (false, s)
  | some (n + 1) =>
    let s := { s with persistent := some n }
    if accept then (true, { s with conn := s.conn + 1, hasTimeout := false }) else (false, s)

/-- One operation of the thread; an event for another operation is ignored. -/
def Server.step (s : Server C) (e : SEv K V) : Server C :=
  match s.pc, e with
  -- lines 198-206
  | .check, .check true => { s with pc := .stopped }
  | .check, .check false => { s with pc := .read }
  -- lines 208-224, server.rs 123-134
  | .read, .read o accept => match o with
    | .request r => match answer C s.cont r with
      | .ok (resp, c) =>
        { s with cont := c, pc := .write resp, traffic := s.traffic ++ [.got s.conn (some r)] }
      | .panic => { s with pc := .panicked, traffic := s.traffic ++ [.got s.conn (some r)] }
    | .encoding e => { s with pc := .write (.error e), traffic := s.traffic ++ [.got s.conn none] }
    | .eof =>
      let (b, s) := s.tryReconnect accept
      { s with pc := if b then .check else .stopped }
    | .timedOut => { s with pc := .check }
    | .ioError => { s with pc := .panicked }
    | .custom => { s with pc := .panicked }
  -- lines 226-243
  | .write resp, .write o accept again => match o with
    | .sent => { s with pc := .check, traffic := s.traffic ++ [.sent s.conn resp] }
    | .eof =>
      let (b, s) := s.tryReconnect accept
      if b then
        if again = .sent then { s with pc := .check, traffic := s.traffic ++ [.sent s.conn resp] }
        else { s with pc := .panicked }
      else { s with pc := .stopped }
    | .timedOut => { s with pc := .panicked }
    | .encoding => { s with pc := .panicked }
    | .ioError => { s with pc := .panicked }
  | _, _ => s

def Server.run (s : Server C) : List (SEv K V) → Server C
  | [] => s
  | e :: es => (s.step e).run es

/-- The next operation when the thread has been told to stop and the client is connected, silent and
reading: `none` if it never returns. -/
def Server.idle (s : Server C) : Option (Server C) :=
  match s.pc with
  | .check => some (s.step (.check true))
  | .read => if s.hasTimeout then some (s.step (.read .timedOut true)) else none
  | .write _ => some (s.step (.write .sent true .sent))
  | .stopped => some s
  | .panicked => some s

end Byoc.Socket
