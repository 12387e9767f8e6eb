import Verif.Proofs.Socket
import Verif.Model.Server
import Verif.Props.ArrayProps

/-!
# C43, C44, C57 – C59: remote containers
-/

namespace Byoc.SocketProps

open Socket

variable {K V : Type}

/-! ## C43 -/

/-- What calling a method directly on a container returns. -/
def direct (C : Block K V) (s : C.State) : Request K V → Res (Response K V × C.State)
  | .capacity => .ok (.capacity (C.capacity s), s)
  | .size => .ok (.size (C.size s), s)
  | .contains k => (C.contains s k).bind fun x => .ok (.contains x.1, x.2)
  | .take k => (C.take s k).bind fun x => .ok (.take x.1, x.2)
  | .takeMultiple ks => (C.takeMultiple s ks).bind fun x => .ok (.takeMultiple x.1, x.2.2)
  | .pop n => (C.pop s n).bind fun x => .ok (.pop x.1, x.2)
  | .push l => (C.push s l).bind fun x => .ok (.push x.1, x.2)
  | .flush => (C.flush s).bind fun x => .ok (.flush x.1, x.2)

/-- A history of direct calls. -/
def locally (C : Block K V) : C.State → List (Request K V) → Res (List (Response K V) × C.State)
  | s, [] => .ok ([], s)
  | s, r :: rs => (direct C s r).bind fun x => (locally C x.2 rs).bind fun y => .ok (x.1 :: y.1, y.2)

theorem answer_eq (C : Block K V) (s : C.State) (r : Request K V) : answer C s r = direct C s r := by
  cases r with
  | capacity => rfl
  | size => rfl
  | contains k => simp only [answer, direct]; cases C.contains s k <;> rfl
  | take k => simp only [answer, direct]; cases C.take s k <;> rfl
  | takeMultiple k => simp only [answer, direct]; cases C.takeMultiple s k <;> rfl
  | pop k => simp only [answer, direct]; cases C.pop s k <;> rfl
  | push k => simp only [answer, direct]; cases C.push s k <;> rfl
  | flush => simp only [answer, direct]; cases C.flush s <;> rfl

theorem replay_eq (C : Block K V) (rs : List (Request K V)) : ∀ s, replay C s rs = locally C s rs := by
  induction rs with
  | nil => intro s; rfl
  | cons r rs ih =>
    intro s
    simp only [replay, locally, answer_eq]
    cases direct C s r with
    | panic => rfl
    | ok x =>
      show (replay C x.2 rs).bind _ = (locally C x.2 rs).bind _
      rw [ih]
      rfl

/-- Full statement of C43: over a network that loses nothing, however slow, the calls a client makes
return what they would return locally, the client never panics, and between calls the container of the
server is in the state it would have locally. -/
def C43_full : Prop :=
  ∀ (K V : Type) (ck : Codec K) (cv : Codec V), ck.Lawful → cv.Lawful →
    ∀ (C : Block K V) (s₀ : C.State) (es : List (Ev K V)),
    let l := ({ server := some s₀ } : Link C).run ck cv es
    ∃ s, locally C s₀ (l.log.map Prod.fst) = .ok (l.log.map Prod.snd, s) ∧ l.clientPanic = false ∧
      (l.waiting = none → l.server = some s)

/-- **C43**, proved part: when the network never pauses for the server's timeout in the middle of a
request.  Moreover the server only dies if the container panics on the call in progress (or returns
2^64 elements). -/
theorem C43_partial (ck : Codec K) (cv : Codec V) (hk : ck.Lawful) (hv : cv.Lawful) (C : Block K V)
    (s₀ : C.State) (es : List (Ev K V)) (hp : ({ server := some s₀ } : Link C).Prompt ck cv es) :
    let l := ({ server := some s₀ } : Link C).run ck cv es
    ∃ s, locally C s₀ (l.log.map Prod.fst) = .ok (l.log.map Prod.snd, s) ∧ l.clientPanic = false ∧
      (l.waiting = none → l.server = some s) ∧
      (l.server = none → ∃ r, l.waiting = some r ∧
        ∀ resp s', direct C s r = .ok (resp, s') → resp.fits = false) := by
  intro l
  have h : Phase ck cv s₀ l := Phase.run hk hv es _ (.idle s₀ rfl rfl rfl rfl rfl rfl rfl rfl) hp
  cases h with
  | idle s hr h1 h2 h3 h4 h5 h6 h7 =>
    exact ⟨s, by rw [← replay_eq]; exact hr, h7, fun _ => h1, fun h => by rw [h1] at h; cases h⟩
  | sending s r hr h1 hf h2 h3 h4 h5 h6 h7 =>
    exact ⟨s, by rw [← replay_eq]; exact hr, h7, fun h => (by rw [h6] at h; cases h),
      fun h => by rw [h1] at h; cases h⟩
  | answering s s' r resp hr ha h1 hf h2 h3 h4 h5 h6 h7 =>
    exact ⟨s, by rw [← replay_eq]; exact hr, h7, fun h => (by rw [h6] at h; cases h),
      fun h => by rw [h1] at h; cases h⟩
  | dead s r hr h1 ha h4 h6 h7 =>
    exact ⟨s, by rw [← replay_eq]; exact hr, h7, fun h => (by rw [h6] at h; cases h),
      fun _ => ⟨r, h6, fun resp s' h => ha resp s' (by rw [answer_eq]; exact h)⟩⟩

/-- **C43, no deadlock**: under the same condition, at any moment, a call in progress completes when its
bytes and those of its response arrive, provided the container does not panic on it. -/
theorem C43_completes (ck : Codec K) (cv : Codec V) (hk : ck.Lawful) (hv : cv.Lawful) (C : Block K V)
    (s₀ : C.State) (es : List (Ev K V)) (hp : ({ server := some s₀ } : Link C).Prompt ck cv es)
    (hs : ∀ s r, (({ server := some s₀ } : Link C).run ck cv es).waiting = some r →
      ∃ resp s', direct C s r = .ok (resp, s') ∧ resp.fits = true) :
    ∃ n m : Nat, (({ server := some s₀ } : Link C).run ck cv
      (es ++ (List.replicate n .deliver ++ List.replicate m .receive))).waiting = none := by
  have h : Phase ck cv s₀ (({ server := some s₀ } : Link C).run ck cv es) :=
    Phase.run hk hv es _ (.idle s₀ rfl rfl rfl rfl rfl rfl rfl rfl) hp
  obtain ⟨n, m, h⟩ := h.progress hk hv _ (fun s r hw => by
    obtain ⟨resp, s', h1, h2⟩ := hs s r hw
    exact ⟨resp, s', by rw [answer_eq]; exact h1, h2⟩)
  exact ⟨n, m, by rw [Link.run_append]; exact h⟩

/-- **C43, contract**: a remote container obeys the contract the container of the server obeys. -/
theorem C43_contract {C : Block K V} {Inv : C.State → Prop} {elems : C.State → List (K × V)}
    {Pre : List (K × V) → Prop} (h : Lawful C Inv elems Pre) : Lawful (remote C) Inv elems Pre where
  bounded := h.bounded
  empty_size := h.empty_size
  contains := h.contains
  take := h.take
  takeMultiple s ks hs := by
    obtain ⟨out, ks', s', h1, h2, h3, h4, h5, h6, h7, h8⟩ := h.takeMultiple s ks hs
    exact ⟨out, ks, s', by simp [remote, h1], h2, h3, h4, h5, h6, List.Subperm.refl ks, fun k hk _ => hk⟩
  push := h.push
  flush := h.flush
  pop := h.pop

/-! ### Witnesses -/

/-- Three elements at most, keys and values are bytes. -/
abbrev bytesArray : Block Byte Byte :=
  arrayBlock (fun _ => 1) (Sorter.ofLe (fun a b => a.2 ≤ b.2)) (Sorter.ofLe (fun a b => a.2 ≤ b.2))

abbrev start (n : Nat) : Link bytesArray := { server := some (Array.new n) }

/-- Push one element, then `contains`, with a pause between requests. -/
def goodEvents : List (Ev Byte Byte) :=
  [.call (.push [(1, 10)])] ++ List.replicate 14 .deliver ++ [.timeout] ++ List.replicate 12 .receive ++
  [.timeout, .call (.contains 1)] ++ List.replicate 3 .deliver ++ List.replicate 2 .deliver ++
  List.replicate 5 .receive

def promptB (l : Link bytesArray) : List (Ev Byte Byte) → Bool
  | [] => true
  | e :: es => (match e with | .timeout => l.reading = [] | _ => true) && promptB (l.step u8 u8 e) es

theorem prompt_of_promptB : ∀ (es : List (Ev Byte Byte)) (l : Link bytesArray),
    promptB l es = true → l.Prompt u8 u8 es
  | [], _, _ => trivial
  | e :: es, l, h => by
    simp only [promptB, Bool.and_eq_true] at h
    refine ⟨?_, prompt_of_promptB es _ h.2⟩
    cases e <;> simp_all

example : (start 3).Prompt u8 u8 goodEvents := prompt_of_promptB _ _ (by decide +kernel)

example : ((start 3).run u8 u8 goodEvents).log =
    [(.push [(1, 10)], .push []), (.contains 1, .contains true)] := by decide +kernel

/-- The client pushes one element, then calls `pop(7)`; the network pauses after the first 4 bytes of
the second request. -/
def slowEvents : List (Ev Byte Byte) :=
  [.call (.push [(1, 10)])] ++ List.replicate 14 .deliver ++ List.replicate 12 .receive ++
  [.call (.pop 7)] ++ List.replicate 4 .deliver ++ [.timeout] ++ List.replicate 8 .deliver ++
  List.replicate 14 .receive

/-- The server takes the argument 7 for a request to flush: the element is lost and the client panics. -/
theorem C43_slow_network_loses : ((start 3).run u8 u8 slowEvents).clientPanic = true ∧
    ((start 3).run u8 u8 slowEvents).server.map (fun s => s.values) = some [] ∧
    ((start 3).run u8 u8 slowEvents).log = [(.push [(1, 10)], .push [])] := by
  refine ⟨by decide +kernel, by decide +kernel, by decide +kernel⟩

/-- With `pop(9)` the server thread dies. -/
theorem C43_slow_network_kills : ((start 3).run u8 u8
    ([.call (.pop 9)] ++ List.replicate 4 .deliver ++ [.timeout] ++ List.replicate 8 .deliver)).server.isNone
      = true := by decide +kernel

theorem C43_false : ¬ C43_full := by
  intro h
  obtain ⟨s, -, h2, -⟩ := h Byte Byte u8 u8 u8_lawful u8_lawful bytesArray (Array.new 3) slowEvents
  have h3 : ((start 3).run u8 u8 slowEvents).clientPanic = true := C43_slow_network_loses.1
  rw [h3] at h2
  cases h2

/-! ## C57: the wire -/

/-- **C57.** For any serialisation of keys and values that reads back what it wrote, every request and
every response is read back exactly as sent, whatever follows it on the stream, consuming exactly its
bytes, and is not complete before its last byte. -/
theorem C57_wire (ck : Codec K) (cv : Codec V) (hk : ck.Lawful) (hv : cv.Lawful) :
    (∀ (r : Request K V), r.fits = true → ∀ rest,
      Request.dec ck cv (r.enc ck cv ++ rest) = .done r rest ∧
      ∀ q, q <+: r.enc ck cv → q ≠ r.enc ck cv → Request.dec ck cv q = .more) ∧
    (∀ (r : Response K V), r.fits = true → ∀ rest,
      Response.dec ck cv (r.enc ck cv ++ rest) = .done r rest ∧
      ∀ q, q <+: r.enc ck cv → q ≠ r.enc ck cv → Response.dec ck cv q = .more) :=
  ⟨fun r hr rest => ⟨(Request.reads hk hv r hr).1 rest, (Request.reads hk hv r hr).2⟩,
   fun r hr rest => ⟨(Response.reads hk hv r hr).1 rest, (Response.reads hk hv r hr).2⟩⟩

/-- No request can be taken for another one. -/
theorem C57_unambiguous (ck : Codec K) (cv : Codec V) (hk : ck.Lawful) (hv : cv.Lawful)
    (r r' : Request K V) (hr : r.fits = true) (hr' : r'.fits = true) (x y : List Byte)
    (h : r.enc ck cv ++ x = r'.enc ck cv ++ y) : r = r' ∧ x = y := by
  have h1 := (Request.reads hk hv r hr).1 x
  have h2 := (Request.reads hk hv r' hr').1 y
  rw [h] at h1
  have := h1.symm.trans h2
  cases this
  exact ⟨rfl, rfl⟩

example : (Request.push [((3 : Byte), (4 : Byte))]).fits = true ∧
    (Request.push [((3 : Byte), (4 : Byte))]).enc u8 u8 = [6, 0, 0, 0, 1, 0, 0, 0, 0, 0, 0, 0, 3, 4] := by
  decide +kernel

/-! ## C44: connections -/

/-- The environment never tells the thread to stop, and new connections can always be accepted. -/
def NeverStopped : SEv K V → Prop
  | .check stop => stop = false
  | .read _ accept => accept = true
  | .write _ accept _ => accept = true

/-- Full statement of C44: a server allowed `n` reconnections accepts at most `n + 1` connections; a
server allowed any number, over a container that does not panic, keeps running until told to stop. -/
def C44_full : Prop :=
  (∀ (K V : Type) (C : Block K V) (c : C.State) (n : Nat) (es : List (SEv K V)),
    (({ cont := c, persistent := some n } : Server C).run es).conn ≤ n) ∧
  (∀ (K V : Type) (C : Block K V) (c : C.State) (es : List (SEv K V)),
    (∀ s r, direct C s r ≠ .panic) → (∀ e ∈ es, NeverStopped e) →
    match (({ cont := c, persistent := none } : Server C).run es).pc with
    | .stopped => False
    | .panicked => False
    | _ => True)

theorem tryReconnect_some {C : Block K V} (s : Server C) (b : Bool) (n : Nat) (h : s.persistent = some n) :
    ∃ m, (s.tryReconnect b).2.persistent = some m ∧ (s.tryReconnect b).2.conn + m ≤ s.conn + n := by
  unfold Server.tryReconnect
  rw [h]
  cases n with
  | zero => exact ⟨0, h, by simp⟩
  | succ n => cases b <;> simp <;> omega

theorem step_some {C : Block K V} (s : Server C) (e : SEv K V) (n : Nat) (h : s.persistent = some n) :
    ∃ m, (s.step e).persistent = some m ∧ (s.step e).conn + m ≤ s.conn + n := by
  have key : ∀ b, ∃ m, (s.tryReconnect b).2.persistent = some m ∧
    (s.tryReconnect b).2.conn + m ≤ s.conn + n := fun b => tryReconnect_some s b n h
  unfold Server.step
  split
  · exact ⟨n, h, Nat.le_refl _⟩
  · exact ⟨n, h, Nat.le_refl _⟩
  · rename_i o accept _
    cases o with
    | request r =>
      simp only
      split
      · exact ⟨n, h, Nat.le_refl _⟩
      · exact ⟨n, h, Nat.le_refl _⟩
    | eof => exact key accept
    | _ => exact ⟨n, h, Nat.le_refl _⟩
  · rename_i resp o accept again _
    cases o with
    | eof =>
      simp only
      split
      · split
        · exact key accept
        · exact key accept
      · exact key accept
    | _ => exact ⟨n, h, Nat.le_refl _⟩
  · exact ⟨n, h, Nat.le_refl _⟩

theorem run_some {C : Block K V} : ∀ (es : List (SEv K V)) (s : Server C) (n : Nat),
    s.persistent = some n → (s.run es).conn ≤ s.conn + n
  | [], s, n, _ => Nat.le_add_right _ _
  | e :: es, s, n, h => by
    obtain ⟨m, h1, h2⟩ := step_some s e n h
    exact Nat.le_trans (run_some es _ m h1) h2

/-- **C44**, first part: at most `n` connections after the first one, whatever happens. -/
theorem C44_bounded (C : Block K V) (c : C.State) (n : Nat) (es : List (SEv K V)) :
    (({ cont := c, persistent := some n } : Server C).run es).conn ≤ n := by
  have := run_some es ({ cont := c, persistent := some n } : Server C) n rfl
  simpa using this

/-- Clients close their connections properly and after their responses; all errors are encoding errors
reported as such. -/
def Polite : SEv K V → Prop
  | .check _ => True
  | .read o _ => match o with
    | .ioError => False
    | .custom => False
    | _ => True
  | .write o _ _ => o = .sent

theorem step_none {C : Block K V} (ht : ∀ s r, direct C s r ≠ .panic) (s : Server C) (e : SEv K V)
    (hp : s.persistent = none) (hs : NeverStopped e) (hpol : Polite e)
    (hpc : match s.pc with | .stopped => False | .panicked => False | _ => True) :
    (s.step e).persistent = none ∧
      match (s.step e).pc with | .stopped => False | .panicked => False | _ => True := by
  unfold Server.step
  split
  · simp [NeverStopped] at hs
  · exact ⟨hp, trivial⟩
  · rename_i o accept _
    simp only [NeverStopped] at hs
    subst hs
    cases o with
    | request r =>
      simp only
      split
      · exact ⟨hp, trivial⟩
      · rename_i hpan
        rw [answer_eq] at hpan
        exact absurd hpan (ht _ _)
    | eof => simp [Server.tryReconnect, hp]
    | encoding e => exact ⟨hp, trivial⟩
    | timedOut => exact ⟨hp, trivial⟩
    | ioError => exact hpol.elim
    | custom => exact hpol.elim
  · rename_i resp o accept again _
    simp only [Polite] at hpol
    subst hpol
    exact ⟨hp, trivial⟩
  · exact ⟨hp, hpc⟩

/-- **C44**, second part, proved for polite clients: a server with unlimited reconnections runs until
told to stop. -/
theorem C44_partial (C : Block K V) (ht : ∀ s r, direct C s r ≠ .panic) :
    ∀ (es : List (SEv K V)), (∀ e ∈ es, NeverStopped e ∧ Polite e) → ∀ (s : Server C),
    s.persistent = none → (match s.pc with | .stopped => False | .panicked => False | _ => True) →
    match (s.run es).pc with
    | .stopped => False
    | .panicked => False
    | _ => True
  | [], _, _, _, hpc => hpc
  | e :: es, hes, s, hp, hpc => by
    obtain ⟨h1, h2⟩ := step_none ht s e hp (hes e (by simp)).1 (hes e (by simp)).2 hpc
    exact C44_partial C ht es (fun e he => hes e (by simp [he])) _ h1 h2

/-- A client that resets its connection, or that closes it before reading its response, ends the
server with a panic, however many reconnections are allowed. -/
theorem C44_reset_kills (C : Block K V) (c : C.State) (p : Option Nat) (accept : Bool) :
    (({ cont := c, persistent := p } : Server C).run [.check false, .read .ioError accept]).pc = .panicked ∧
    (({ cont := c, persistent := p } : Server C).run [.check false, .read (.request .size) accept,
      .write .ioError accept .sent]).pc = .panicked := by
  constructor <;> rfl

/-- A container with nothing in it. -/
def unitBlock : Block Nat Nat where
  State := Unit
  capacity _ := 0
  size _ := 0
  contains s _ := .ok (false, s)
  take s _ := .ok (none, s)
  takeMultiple s ks := .ok ([], ks, s)
  pop s _ := .ok ([], s)
  push s l := .ok (l, s)
  flush s := .ok ([], s)

theorem unitBlock_total : ∀ s r, direct unitBlock s r ≠ .panic := by
  intro s r
  cases r <;> exact fun h => by cases h

theorem C44_false : ¬ C44_full := by
  intro h
  have h2 := h.2 Nat Nat unitBlock () [.check false, .read .ioError true] unitBlock_total
    (by intro e he; simp at he; rcases he with rfl | rfl <;> rfl)
  exact h2

/-- Two clients, politely, then a third one. -/
def politeEvents : List (SEv Nat Nat) :=
  [.check false, .read (.request (.push [(1, 1)])) true, .write .sent true .sent, .check false,
    .read .timedOut true, .check false, .read .eof true, .check false, .read (.request .flush) true,
    .write .sent true .sent, .check false, .read .eof true]

example : (∀ e ∈ politeEvents, NeverStopped e ∧ Polite e) ∧
    (({ cont := (), persistent := none } : Server unitBlock).run politeEvents).conn = 2 ∧
    (({ cont := (), persistent := some 1 } : Server unitBlock).run politeEvents).conn = 1 := by
  refine ⟨?_, rfl, rfl⟩
  intro e he
  simp [politeEvents] at he
  rcases he with rfl | rfl | rfl | rfl | rfl | rfl | rfl | rfl | rfl | rfl | rfl | rfl <;>
    first | exact ⟨rfl, trivial⟩ | exact ⟨rfl, rfl⟩

/-! ## C58: stopping -/

/-- `n` operations of a thread told to stop, whose client is silent; `none` if one never returns. -/
def idles {C : Block K V} : Nat → Server C → Option (Server C)
  | 0, s => some s
  | n + 1, s => s.idle.bind (idles n)

/-- The thread has ended. -/
def ended {C : Block K V} (s : Server C) : Prop :=
  match s.pc with
  | .stopped => True
  | .panicked => True
  | _ => False

/-- Full statement of C58: at any moment, a thread told to stop ends, even if its client stays connected
and silent. -/
def C58_full : Prop :=
  ∀ (K V : Type) (C : Block K V) (c : C.State) (p : Option Nat) (es : List (SEv K V)),
    ∃ n s', idles n (({ cont := c, persistent := p } : Server C).run es) = some s' ∧ ended s'

theorem tryReconnect_timeout {C : Block K V} (s : Server C) (b : Bool) :
    ((s.tryReconnect b).2.conn = s.conn ∧ (s.tryReconnect b).2.hasTimeout = s.hasTimeout) ∨
      (s.tryReconnect b).2.conn = s.conn + 1 := by
  unfold Server.tryReconnect
  cases h : s.persistent with
  | none => cases b <;> simp
  | some n => cases n <;> cases b <;> simp

theorem step_timeout {C : Block K V} (s : Server C) (e : SEv K V)
    (h : s.conn = 0 → s.hasTimeout = true) : (s.step e).conn = 0 → (s.step e).hasTimeout = true := by
  have key : ∀ b, (s.tryReconnect b).2.conn = 0 → (s.tryReconnect b).2.hasTimeout = true := by
    intro b h0
    rcases tryReconnect_timeout s b with ⟨h1, h2⟩ | h1
    · rw [h2]; exact h (h1 ▸ h0)
    · omega
  unfold Server.step
  split
  · exact h
  · exact h
  · rename_i o accept _
    cases o with
    | request r =>
      simp only
      split
      · exact h
      · exact h
    | eof => exact key accept
    | _ => exact h
  · rename_i resp o accept again _
    cases o with
    | eof =>
      simp only
      split
      · split
        · exact key accept
        · exact key accept
      · exact key accept
    | _ => exact h
  · exact h

theorem run_timeout {C : Block K V} : ∀ (es : List (SEv K V)) (s : Server C),
    (s.conn = 0 → s.hasTimeout = true) → (s.run es).conn = 0 → (s.run es).hasTimeout = true
  | [], _, h => h
  | e :: es, s, h => run_timeout es _ (step_timeout s e h)

/-- **C58**, proved part: as long as the server is serving its first connection. -/
theorem C58_partial (C : Block K V) (c : C.State) (p : Option Nat) (es : List (SEv K V))
    (h : (({ cont := c, persistent := p } : Server C).run es).conn = 0) :
    ∃ n s', idles n (({ cont := c, persistent := p } : Server C).run es) = some s' ∧ ended s' := by
  have ht := run_timeout es ({ cont := c, persistent := p } : Server C) (fun _ => rfl) h
  generalize ({ cont := c, persistent := p } : Server C).run es = s at *
  cases hpc : s.pc with
  | check => exact ⟨1, _, by simp [idles, Server.idle, hpc]; rfl, by simp [ended, Server.step, hpc]⟩
  | read => exact ⟨2, _, by simp [idles, Server.idle, hpc, ht, Server.step]; rfl, by simp [ended]⟩
  | write r => exact ⟨2, _, by simp [idles, Server.idle, hpc, Server.step]; rfl, by simp [ended]⟩
  | stopped => exact ⟨0, s, rfl, by simp [ended, hpc]⟩
  | panicked => exact ⟨0, s, rfl, by simp [ended, hpc]⟩

/-- The first client leaves, another one connects and stays silent. -/
def silentEvents : List (SEv Nat Nat) := [.check false, .read .eof true, .check false]

/-- After a reconnection the stream has no timeout: the thread waits for the client forever. -/
theorem C58_hangs (n : Nat) (s' : Server unitBlock)
    (h : idles n (({ cont := (), persistent := some 1 } : Server unitBlock).run silentEvents) = some s') :
    ¬ ended s' := by
  cases n with
  | zero => cases h; exact id
  | succ n => cases h

theorem C58_false : ¬ C58_full := by
  intro h
  obtain ⟨n, s', h1, h2⟩ := h Nat Nat unitBlock () (some 1) silentEvents
  exact C58_hangs n s' h1 h2

example : (({ cont := (), persistent := some 1 } : Server unitBlock).run
    [.check false, .read (.request .flush) true, .write .sent true .sent, .check false]).conn = 0 := rfl

/-! ## C59: each client gets its own responses -/

/-- The traffic is a sequence of requests, each answered on the same connection by what the container
returns (or by an error when the request could not be decoded), starting with the container in state
`s` and ending with it in state `s'`. -/
inductive Served (C : Block K V) (s : C.State) : List (Traffic K V) → C.State → Prop where
  | none : Served C s [] s
  | answered {t s' s''} (conn : Nat) (r : Request K V) (resp : Response K V) :
      Served C s t s' → direct C s' r = .ok (resp, s'') →
      Served C s (t ++ [.got conn (some r)] ++ [.sent conn resp]) s''
  | refused {t s'} (conn : Nat) (e : BincodeErrorKind) : Served C s t s' →
      Served C s (t ++ [.got conn none] ++ [.sent conn (.error e)]) s'

/-- Full statement of C59: whenever the server is about to serve the next request, every request it
received has been answered, once, on its own connection, by what the container returned, in order. -/
def C59_full : Prop :=
  ∀ (K V : Type) (C : Block K V) (c : C.State) (p : Option Nat) (es : List (SEv K V)),
    let s := ({ cont := c, persistent := p } : Server C).run es
    s.pc = .check → Served C c s.traffic s.cont

/-- Writing never reports an end of file. -/
def NoWriteEof : SEv K V → Prop
  | .write o _ _ => o ≠ .eof
  | _ => True

/-- What holds at each point of the loop. -/
def ServedAt (C : Block K V) (c : C.State) (s : Server C) : Prop :=
  match s.pc with
  | .check => Served C c s.traffic s.cont
  | .read => Served C c s.traffic s.cont
  | .write resp => ∀ conn, s.conn = conn → Served C c (s.traffic ++ [.sent conn resp]) s.cont
  | _ => True

theorem tryReconnect_traffic {C : Block K V} (s : Server C) (b : Bool) :
    (s.tryReconnect b).2.traffic = s.traffic ∧ (s.tryReconnect b).2.cont = s.cont := by
  unfold Server.tryReconnect
  cases h : s.persistent with
  | none => cases b <;> simp
  | some n => cases n <;> cases b <;> simp

theorem step_served {C : Block K V} {c : C.State} (s : Server C) (e : SEv K V) (hn : NoWriteEof e)
    (h : ServedAt C c s) : ServedAt C c (s.step e) := by
  unfold Server.step
  split
  · trivial
  · rename_i hpc
    unfold ServedAt at h
    rw [hpc] at h
    exact h
  · rename_i o accept hpc
    unfold ServedAt at h
    rw [hpc] at h
    cases o with
    | request r =>
      simp only
      split
      · rename_i resp c' ha
        rw [answer_eq] at ha
        rintro _ rfl
        exact .answered _ r resp h ha
      · trivial
    | encoding e => rintro _ rfl; exact .refused _ e h
    | eof =>
      have ht := tryReconnect_traffic s accept
      simp only
      cases hb : (s.tryReconnect accept).1 with
      | false => trivial
      | true =>
        show Served C c (s.tryReconnect accept).2.traffic (s.tryReconnect accept).2.cont
        rw [ht.1, ht.2]; exact h
    | timedOut => exact h
    | ioError => trivial
    | custom => trivial
  · rename_i resp o accept again hpc
    unfold ServedAt at h
    rw [hpc] at h
    cases o with
    | sent => exact h _ rfl
    | eof => exact absurd rfl hn
    | _ => trivial
  · exact h

/-- **C59**, proved part: when writing never reports an end of file (which TCP streams do not). -/
theorem C59_partial (C : Block K V) (c : C.State) (p : Option Nat) (es : List (SEv K V))
    (hn : ∀ e ∈ es, NoWriteEof e) :
    let s := ({ cont := c, persistent := p } : Server C).run es
    s.pc = .check → Served C c s.traffic s.cont := by
  have key : ∀ (es : List (SEv K V)), (∀ e ∈ es, NoWriteEof e) → ∀ s : Server C, ServedAt C c s →
      ServedAt C c (s.run es) := by
    intro es
    induction es with
    | nil => intro _ s h; exact h
    | cons e es ih =>
      intro hn s h
      exact ih (fun e he => hn e (by simp [he])) _ (step_served s e (hn e (by simp)) h)
  intro s hpc
  have : ServedAt C c s := key es hn _ Served.none
  unfold ServedAt at this
  rw [hpc] at this
  exact this

/-- The traffic of a history served properly alternates on the same connection. -/
theorem Served.same_conn {C : Block K V} {s s' : C.State} {t : List (Traffic K V)} (h : Served C s t s') :
    ∀ a b conn resp, t = a ++ .sent conn resp :: b → ∃ a' r, a = a' ++ [.got conn r] := by
  induction h with
  | none => intro a b conn resp h; simp at h
  | @answered t s1 s2 cn r resp' _ _ ih =>
    intro a b conn resp h
    rcases List.eq_nil_or_concat b with rfl | ⟨b', x, rfl⟩
    · have := List.append_inj' h rfl
      obtain ⟨rfl, h2⟩ := this
      cases h2
      exact ⟨t, some r, rfl⟩
    · have h' : (t ++ [Traffic.got cn (some r)]) ++ [Traffic.sent cn resp'] =
        (a ++ Traffic.sent conn resp :: b') ++ [x] := by simpa using h
      have h1 := (List.append_inj' h' rfl).1
      rcases List.eq_nil_or_concat b' with rfl | ⟨b'', y, rfl⟩
      · have := (List.append_inj' h1 rfl).2
        cases this
      · have h'' : t ++ [Traffic.got cn (some r)] = (a ++ Traffic.sent conn resp :: b'') ++ [y] := by
          simpa using h1
        exact ih a b'' conn resp (List.append_inj' h'' rfl).1
  | @refused t s1 cn e _ ih =>
    intro a b conn resp h
    rcases List.eq_nil_or_concat b with rfl | ⟨b', x, rfl⟩
    · have := List.append_inj' h rfl
      obtain ⟨rfl, h2⟩ := this
      cases h2
      exact ⟨t, Option.none, rfl⟩
    · have h' : (t ++ [Traffic.got cn Option.none]) ++ [Traffic.sent cn (.error e)] =
        (a ++ Traffic.sent conn resp :: b') ++ [x] := by simpa using h
      have h1 := (List.append_inj' h' rfl).1
      rcases List.eq_nil_or_concat b' with rfl | ⟨b'', y, rfl⟩
      · have := (List.append_inj' h1 rfl).2
        cases this
      · have h'' : t ++ [Traffic.got cn Option.none] = (a ++ Traffic.sent conn resp :: b'') ++ [y] := by
          simpa using h1
        exact ih a b'' conn resp (List.append_inj' h'' rfl).1

/-- The response to the first client is sent to the second one. -/
theorem C59_stale : (({ cont := (), persistent := some 1 } : Server unitBlock).run
    [.check false, .read (.request .size) true, .write .eof true .sent]).traffic =
    [.got 0 (some .size), .sent 1 (.size 0)] := rfl

theorem C59_false : ¬ C59_full := by
  intro h
  have h1 := h Nat Nat unitBlock () (some 1)
    [.check false, .read (.request .size) true, .write .eof true .sent] rfl
  rw [C59_stale] at h1
  obtain ⟨a', r, h2⟩ := h1.same_conn [.got 0 (some .size)] [] 1 (.size 0) rfl
  have := (List.append_inj' (s₁ := []) h2 rfl).2
  cases this

example : (∀ e ∈ politeEvents, NoWriteEof e) ∧
    (({ cont := (), persistent := none } : Server unitBlock).run politeEvents).pc = .check ∧
    (({ cont := (), persistent := none } : Server unitBlock).run politeEvents).traffic =
      [.got 0 (some (.push [(1, 1)])), .sent 0 (.push [(1, 1)]), .got 1 (some .flush), .sent 1 (.flush [])] := by
  refine ⟨?_, rfl, rfl⟩
  intro e he
  simp [politeEvents] at he
  rcases he with rfl | rfl | rfl | rfl | rfl | rfl | rfl | rfl | rfl | rfl | rfl | rfl <;>
    first | trivial | exact WriteOutcome.noConfusion

end Byoc.SocketProps
