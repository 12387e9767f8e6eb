import Verif.Spec

/-!
# Model of the remote container: `SocketClient` and its server

src/socket/message.rs, src/socket/client.rs, src/socket/building_block.rs, src/socket/server.rs,
src/socket/server_thread.rs, src/socket/error.rs.

The wire format is the one of bincode 1.x with its default options, which the messages use through
`serialize_into` and `deserialize_from` (message.rs 34-44, 67-77): little endian integers, enumeration
tags on 4 bytes, lengths and `usize` on 8 bytes, one byte for `bool` and for the tag of an `Option`.
-/

namespace Byoc.Socket

/-! ## Reading bytes -/

abbrev Byte := Fin 256

/-- What `deserialize_from` makes of the bytes received so far: it needs more, it has a value (and these
bytes are left), or it fails.  `bad` is an encoding error (`InvalidTagEncoding` for an `Option`,
`InvalidBoolEncoding`); `custom` is `ErrorKind::Custom`, which serde's derived code returns for an
unknown variant of an enumeration. -/
inductive Parse (α : Type) where
  | more
  | done (a : α) (rest : List Byte)
  | bad
  | custom
deriving DecidableEq, Repr

/-- A reader of `α`s. -/
abbrev Parser (α : Type) := List Byte → Parse α

/-- Read nothing. -/
def Parser.ret {α : Type} (a : α) : Parser α := fun l => .done a l

/-- Read one thing, then another. -/
def Parser.andThen {α β : Type} (p : Parser α) (f : α → Parser β) : Parser β := fun l =>
  match p l with
  | .more => .more
  | .bad => .bad
  | .custom => .custom
  | .done a rest => f a rest

/-- An encoding error. -/
def Parser.fail {α : Type} : Parser α := fun _ => .bad

/-- An unknown variant of an enumeration. -/
def Parser.unknown {α : Type} : Parser α := fun _ => .custom

/-- One byte. -/
def byteP : Parser Byte
  | [] => .more
  | b :: l => .done b l

/-- An unsigned integer of `n` bytes, little endian. -/
def uintP : Nat → Parser Nat
  | 0 => .ret 0
  | n + 1 => byteP.andThen fun b => (uintP n).andThen fun r => .ret (b.val + 256 * r)

def uint : Nat → Nat → List Byte
  | 0, _ => []
  | n + 1, v => ⟨v % 256, Nat.mod_lt _ (by decide)⟩ :: uint n (v / 256)

/-- `n` values. -/
def timesP {α : Type} (p : Parser α) : Nat → Parser (List α)
  | 0 => .ret []
  | n + 1 => p.andThen fun a => (timesP p n).andThen fun l => .ret (a :: l)

/-- A vector: its length on 8 bytes, then its values. -/
def vecP {α : Type} (p : Parser α) : Parser (List α) := (uintP 8).andThen fun n => timesP p n

def vec {α : Type} (e : α → List Byte) (l : List α) : List Byte := uint 8 l.length ++ l.flatMap e

/-- A pair. -/
def pairP {α β : Type} (p : Parser α) (q : Parser β) : Parser (α × β) :=
  p.andThen fun a => q.andThen fun b => .ret (a, b)

def pair {α β : Type} (e : α → List Byte) (f : β → List Byte) (x : α × β) : List Byte := e x.1 ++ f x.2

/-- The serialisation of keys or of values. -/
structure Codec (α : Type) where
  enc : α → List Byte
  dec : Parser α

/-- Bytes `bs` are a complete encoding of `a`: followed by anything, `a` is read and exactly `bs` is
consumed; cut short, more is asked for. -/
def Reads {α : Type} (p : Parser α) (bs : List Byte) (a : α) : Prop :=
  (∀ l, p (bs ++ l) = .done a l) ∧ ∀ q, q <+: bs → q ≠ bs → p q = .more

/-- serde's contract: what is written is read back. -/
def Codec.Lawful {α : Type} (c : Codec α) : Prop := ∀ a, Reads c.dec (c.enc a) a

/-- `u8`. -/
def u8 : Codec Byte := ⟨fun b => [b], byteP⟩

/-! ## Messages -/

variable {K V : Type}

/-- message.rs 19-29. -/
inductive Request (K V : Type) where
  | capacity
  | size
  | contains (k : K)
  | take (k : K)
  | takeMultiple (ks : List K)
  | pop (n : Nat)
  | push (l : List (K × V))
  | flush
deriving DecidableEq, Repr

/-- error.rs 5-19. -/
inductive BincodeErrorKind where
  | invalidEncoding
  | deserializeAnyNotSupported
  | sizeLimit
  | sequenceMustHaveLength
deriving DecidableEq, Repr

/-- message.rs 51-62 (`Error` carries error.rs 24-28). -/
inductive Response (K V : Type) where
  | capacity (n : Nat)
  | size (n : Nat)
  | contains (b : Bool)
  | take (o : Option (K × V))
  | takeMultiple (l : List (K × V))
  | pop (l : List (K × V))
  | push (l : List (K × V))
  | flush (l : List (K × V))
  | error (e : BincodeErrorKind)
deriving DecidableEq, Repr

/-- message.rs 34-39: `Request::send`. -/
def Request.enc (ck : Codec K) (cv : Codec V) : Request K V → List Byte
  | .capacity => uint 4 0
  | .size => uint 4 1
  | .contains k => uint 4 2 ++ ck.enc k
  | .take k => uint 4 3 ++ ck.enc k
  | .takeMultiple ks => uint 4 4 ++ vec ck.enc ks
  | .pop n => uint 4 5 ++ uint 8 n
  | .push l => uint 4 6 ++ vec (pair ck.enc cv.enc) l
  | .flush => uint 4 7

/-- message.rs 41-45: `Request::receive`. -/
def Request.dec (ck : Codec K) (cv : Codec V) : Parser (Request K V) :=
  (uintP 4).andThen fun tag => match tag with
  | 0 => .ret .capacity
  | 1 => .ret .size
  | 2 => ck.dec.andThen fun k => .ret (.contains k)
  | 3 => ck.dec.andThen fun k => .ret (.take k)
  | 4 => (vecP ck.dec).andThen fun ks => .ret (.takeMultiple ks)
  | 5 => (uintP 8).andThen fun n => .ret (.pop n)
  | 6 => (vecP (pairP ck.dec cv.dec)).andThen fun l => .ret (.push l)
  | 7 => .ret .flush
  | _ => .unknown

/-- Tags of error.rs 5-19. -/
def BincodeErrorKind.tag : BincodeErrorKind → Nat
  | .invalidEncoding => 0
  | .deserializeAnyNotSupported => 1
  | .sizeLimit => 2
  | .sequenceMustHaveLength => 3

/-- message.rs 67-72: `Response::send`. -/
def Response.enc (ck : Codec K) (cv : Codec V) : Response K V → List Byte
  | .capacity n => uint 4 0 ++ uint 8 n
  | .size n => uint 4 1 ++ uint 8 n
  | .contains b => uint 4 2 ++ [if b then 1 else 0]
  | .take none => uint 4 3 ++ [0]
  | .take (some e) => uint 4 3 ++ 1 :: pair ck.enc cv.enc e
  | .takeMultiple l => uint 4 4 ++ vec (pair ck.enc cv.enc) l
  | .pop l => uint 4 5 ++ vec (pair ck.enc cv.enc) l
  | .push l => uint 4 6 ++ vec (pair ck.enc cv.enc) l
  | .flush l => uint 4 7 ++ vec (pair ck.enc cv.enc) l
  | .error e => uint 4 8 ++ (uint 4 0 ++ uint 4 e.tag)

def boolP : Parser Bool := byteP.andThen fun b =>
  if b = 0 then .ret false else if b = 1 then .ret true else .fail

def optionP {α : Type} (p : Parser α) : Parser (Option α) := byteP.andThen fun b =>
  if b = 0 then .ret none else if b = 1 then p.andThen fun a => .ret (some a) else .fail

def errorKindP : Parser BincodeErrorKind := (uintP 4).andThen fun k => match k with
  | 0 => .ret .invalidEncoding
  | 1 => .ret .deserializeAnyNotSupported
  | 2 => .ret .sizeLimit
  | 3 => .ret .sequenceMustHaveLength
  | _ => .unknown

def errorP : Parser BincodeErrorKind := (uintP 4).andThen fun t => match t with
  | 0 => errorKindP
  | _ => .unknown

/-- message.rs 74-78: `Response::receive`. -/
def Response.dec (ck : Codec K) (cv : Codec V) : Parser (Response K V) :=
  (uintP 4).andThen fun tag => match tag with
  | 0 => (uintP 8).andThen fun n => .ret (.capacity n)
  | 1 => (uintP 8).andThen fun n => .ret (.size n)
  | 2 => boolP.andThen fun b => .ret (.contains b)
  | 3 => (optionP (pairP ck.dec cv.dec)).andThen fun o => .ret (.take o)
  | 4 => (vecP (pairP ck.dec cv.dec)).andThen fun l => .ret (.takeMultiple l)
  | 5 => (vecP (pairP ck.dec cv.dec)).andThen fun l => .ret (.pop l)
  | 6 => (vecP (pairP ck.dec cv.dec)).andThen fun l => .ret (.push l)
  | 7 => (vecP (pairP ck.dec cv.dec)).andThen fun l => .ret (.flush l)
  | 8 => errorP.andThen fun e => .ret (.error e)
  | _ => .unknown

/-- Integers and lengths are below 2^64, as on a 64 bit machine. -/
def Request.fits : Request K V → Bool
  | .takeMultiple ks => ks.length < 2 ^ 64
  | .pop n => n < 2 ^ 64
  | .push l => l.length < 2 ^ 64
  | _ => true

def Response.fits : Response K V → Bool
  | .capacity n => n < 2 ^ 64
  | .size n => n < 2 ^ 64
  | .takeMultiple l => l.length < 2 ^ 64
  | .pop l => l.length < 2 ^ 64
  | .push l => l.length < 2 ^ 64
  | .flush l => l.length < 2 ^ 64
  | _ => true

/-! ## Answering -/

/-- server.rs 74-97: `match_response`.  The keys left by `take_multiple` are dropped (lines 87-89). -/
def answer (C : Block K V) (s : C.State) : Request K V → Res (Response K V × C.State)
  | .capacity => .ok (.capacity (C.capacity s), s)
  | .size => .ok (.size (C.size s), s)
  | .contains k => do let (b, s') ← C.contains s k; pure (.contains b, s')
  | .take k => do let (o, s') ← C.take s k; pure (.take o, s')
  | .takeMultiple ks => do let (out, _, s') ← C.takeMultiple s ks; pure (.takeMultiple out, s')
  | .pop n => do let (out, s') ← C.pop s n; pure (.pop out, s')
  | .push l => do let (out, s') ← C.push s l; pure (.push out, s')
  | .flush => do let (out, s') ← C.flush s; pure (.flush out, s')

/-- building_block.rs 11-81: the response has the kind of the request, otherwise the client panics
(lines 7-9). -/
def accepts : Request K V → Response K V → Bool
  | .capacity, .capacity _ => true
  | .size, .size _ => true
  | .contains _, .contains _ => true
  | .take _, .take _ => true
  | .takeMultiple _, .takeMultiple _ => true
  | .pop _, .pop _ => true
  | .push _, .push _ => true
  | .flush, .flush _ => true
  | _, _ => false

/-- A `SocketClient` as a container: building_block.rs 11-81, with the server's container behind it.
`take_multiple` sends a copy of the keys (lines 67-74) and leaves the caller's keys as they are. -/
def remote (C : Block K V) : Block K V where
  State := C.State
  capacity s := C.capacity s
  size s := C.size s
  contains s k := C.contains s k
  take s k := C.take s k
  takeMultiple s ks := do
    let (out, _, s') ← C.takeMultiple s ks
    return (out, ks, s')
  pop s n := C.pop s n
  push s l := C.push s l
  flush s := C.flush s

/-! ## One client and one server, byte by byte -/

/-- A connected client and server. -/
structure Link (C : Block K V) where
  /-- the container of the server; `none` when the server thread has panicked -/
  server : Option C.State
  /-- what the current `deserialize_from` of the server has consumed (server.rs 126) -/
  reading : List Byte := []
  /-- bytes sent by the client that have not arrived -/
  toServer : List Byte := []
  /-- bytes sent by the server that have not arrived -/
  toClient : List Byte := []
  /-- what the current `deserialize_from` of the client has consumed (client.rs 24) -/
  received : List Byte := []
  /-- the call in progress -/
  waiting : Option (Request K V) := none
  /-- the client has panicked -/
  clientPanic : Bool := false
  /-- the calls that have returned, with what they returned, in order -/
  log : List (Request K V × Response K V) := []

/-- What may happen next.  The network loses and reorders nothing but may be arbitrarily slow. -/
inductive Ev (K V : Type) where
  /-- the client calls a method -/
  | call (r : Request K V)
  /-- a byte arrives at the server -/
  | deliver
  /-- nothing arrives at the server for 100 ms (server_thread.rs 191: `with_timeout`) -/
  | timeout
  /-- a byte arrives at the client -/
  | receive

variable (ck : Codec K) (cv : Codec V) {C : Block K V}

/-- One step.
* `call`: client.rs 20-22 (`request.send`); one call at a time.
* `deliver`: server.rs 123-134 and server_thread.rs 207-228: when the request is complete, answer it and
  send the response; when it cannot be decoded, send the error (error.rs 49-76), or panic if the error
  is a `Custom` one.  A panic of the container ends the
  thread.  A response with 2^64 elements or more cannot exist; the model ends the thread.
* `timeout`: server_thread.rs 218 (`continue`): the bytes already consumed are lost.
* `receive`: client.rs 24-29, building_block.rs: when the response is complete the call returns, or
  panics if it is not of the kind expected or cannot be decoded. -/
def Link.step (l : Link C) : Ev K V → Link C
  | .call r => if l.waiting = none ∧ l.clientPanic = false ∧ r.fits then
      { l with waiting := some r, toServer := l.toServer ++ r.enc ck cv } else l
  | .deliver => match l.server, l.toServer with
    | some s, b :: rest =>
      match Request.dec ck cv (l.reading ++ [b]) with
      | .more => { l with reading := l.reading ++ [b], toServer := rest }
      | .done r _ => match answer C s r with
        | .ok (resp, s') => if resp.fits then
            { l with server := some s', reading := [], toServer := rest,
                     toClient := l.toClient ++ resp.enc ck cv }
          else { l with server := none, reading := [], toServer := rest }
        | .panic => { l with server := none, reading := [], toServer := rest }
      | .bad => { l with reading := [], toServer := rest,
                         toClient := l.toClient ++ (Response.error .invalidEncoding : Response K V).enc ck cv }
      | .custom => { l with server := none, reading := [], toServer := rest }
    | _, _ => l
  | .timeout => { l with reading := [] }
  | .receive => match l.waiting, l.toClient with
    | some r, b :: rest =>
      if l.clientPanic then l else
      match Response.dec ck cv (l.received ++ [b]) with
      | .more => { l with received := l.received ++ [b], toClient := rest }
      | .done resp _ =>
        if accepts r resp then
          { l with received := [], toClient := rest, waiting := none, log := l.log ++ [(r, resp)] }
        else { l with received := [], toClient := rest, clientPanic := true }
      | _ => { l with received := [], toClient := rest, clientPanic := true }
    | _, _ => l

def Link.run (l : Link C) : List (Ev K V) → Link C
  | [] => l
  | e :: es => (l.step ck cv e).run es

end Byoc.Socket
