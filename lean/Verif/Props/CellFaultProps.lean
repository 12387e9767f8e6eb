import Verif.Proofs.CellFaults
import Verif.Proofs.StreamGet
import Verif.Props.FaultProps

/-!
# C120: accesses, `take_multiple` and `flush` of `Stream` containers when the operations of their streams fail
-/

namespace Byoc.CellFaultProps

open Byoc.Faults (Fate Disk Out M Sound bind_ok bind_err bind_panic)
open Byoc.CellFaults (Req Ans run call)
open ByteStream (Small stored csz)
open StreamProps (IsChunkOf)

variable {K V R : Type}

/-! ## Specification -/

/-- A call that returned told the truth, with `before` in the container, and left `after`; a call that panicked changed
nothing, except `flush`, which left the container empty. -/
def Honest (before after : List (K × V)) : Req K V → Out (Ans K V) → Prop
  | .base c, .ok (.base a) => FaultProps.Honest before after c (.ok a)
  | .base c, .panic => FaultProps.Honest before after c .panic
  | .get k, .ok (.val none) => ¬ HasKey before k ∧ after = before
  | .get k, .ok (.val (some v)) => (k, v) ∈ before ∧ after = before
  | .getMut k _, .ok (.val none) => ¬ HasKey before k ∧ after = before
  | .getMut k none, .ok (.val (some v)) => (k, v) ∈ before ∧ after = before
  | .getMut k (some f), .ok (.val (some v)) =>
      ∃ rest, before.Perm ((k, v) :: rest) ∧ after.Perm ((k, f v) :: rest)
  | .takeMultiple ks, .ok (.taken out left) => out.Sublist before ∧ (out.map Prod.fst ++ left).Perm ks ∧
      (∀ k ∈ ks, HasKey before k → HasKey out k) ∧ after = before
  | .flush, .ok (.base (.many out)) => out.Sublist before ∧ after = []
  | .flush, .panic => after = []
  | .get _, .panic => after = before
  | .getMut _ _, .panic => after = before
  | .takeMultiple _, .panic => after = before
  | _, _ => False

/-- A history of calls and what they returned, from the content `before` to the content `after`. -/
def Accounts : List (K × V) → List (Req K V) → List (Out (Ans K V)) → List (K × V) → Prop
  | before, [], [], after => after = before
  | before, c :: cs, o :: os, after => ∃ mid, Honest before mid c o ∧ Accounts mid cs os after
  | _, _, _, _ => False

/-- The user writes in the cells values that take a chunk of the same size. -/
def Legal (cd : Codec (K × V)) (calls : List (Req K V)) : Prop :=
  ∀ k f, Req.getMut k (some f) ∈ calls → ∀ k v c, IsChunkOf cd (k, v) c → IsChunkOf cd (k, f v) c

/-- The calls of the model without failures. -/
def plain [LinearOrder K] [LinearOrder R] (cd : Codec (K × V)) (rank : V → R) (s : ByteStream) :
    Req K V → Res (Ans K V × ByteStream)
  | .base c => do let (a, s) ← FaultProps.plain cd rank s c; pure (.base a, s)
  | .get k => do let (o, s) ← ByteStream.get cd s k id; pure (.val o, s)
  | .getMut k none => do let (o, s) ← ByteStream.get cd s k id; pure (.val o, s)
  | .getMut k (some f) => do let (o, s) ← ByteStream.getMut cd s k f; pure (.val o, s)
  | .takeMultiple ks => do let (out, left, s) ← ByteStream.takeMultiple cd s ks; pure (.taken out left, s)
  | .flush => do let (out, s) ← ByteStream.flush cd s; pure (.base (.many out), s)

/-- The state after a history on an empty container, in which only seeks and reads failed. -/
def After [LinearOrder K] [LinearOrder R] (cd : Codec (K × V)) (rank : V → R) (s : ByteStream) (d : Disk) : Prop :=
  ∃ (cap : Nat) (calls : List (Req K V)) (d₀ : Disk), Legal cd calls ∧ d₀.Reading ∧
    (run cd rank calls d₀ (ByteStream.new cap)).2 = (d, s)

/-! ## Proofs -/

theorem flat_nil (s : ByteStream) : (s.stream.map fun _ => ([] : List (K × V))).flatten = [] := by
  rw [List.map_const']
  simp

theorem flushed_sound {cd : Codec (K × V)} {s : ByteStream} {ls : List (List (K × V))} (h : Sound cd s ls) :
    Sound cd { s with stream := s.stream.map fun _ => none } (s.stream.map fun _ => []) :=
  ⟨ByteStream.flush_streams s.stream 0, by rw [List.length_map, h.1.length, h.2]⟩

/-- One call on a sound state. -/
theorem call_run [LinearOrder K] [LinearOrder R] {cd : Codec (K × V)} (hsmall : Small cd) (rank : V → R)
    {s : ByteStream} {ls : List (List (K × V))} (h : Sound cd s ls) (c : Req K V) (hc : Legal cd [c]) (d : Disk)
    (hd : d.Reading) :
    ∃ o d' s' ls', call cd rank c d s = (o, d', s') ∧ d'.Le d ∧ s'.capacity = s.capacity ∧ Sound cd s' ls' ∧
      Honest ls.flatten ls'.flatten c o ∧
      (o = .panic → d.Bad) ∧
      (¬ d.Bad → ∃ a, o = .ok a ∧ plain cd rank s c = .ok (a, s')) ∧
      (Fate.err ∉ d.seeks → total (csz cd) ls.flatten ≤ s.capacity → total (csz cd) ls'.flatten ≤ s.capacity) := by
  cases c with
  | base c =>
    obtain ⟨o, d', s', ls', h1, h2, h3, h4, h5, h6, h7, h8⟩ := FaultProps.call_run hsmall rank h c d hd
    rcases o with a | _ | _
    · refine ⟨.ok (.base a), d', s', ls', bind_ok h1, h2, h3, h4, h5, by simp, fun hb => ?_, h8⟩
      obtain ⟨a', e1, e2⟩ := h7 hb
      cases e1
      exact ⟨_, rfl, by simp only [plain, e2]; rfl⟩
    · cases c <;> exact absurd h5 (by simp [FaultProps.Honest])
    · exact ⟨.panic, d', s', ls', bind_panic h1, h2, h3, h4, h5, fun _ => h6 rfl, fun hb => absurd (h6 rfl) hb, h8⟩
  | get k =>
    obtain ⟨d', g1, ⟨g2, g3⟩ | ⟨o, g2, g3, g4, g5⟩⟩ := CellFaults.get_run h k d hd
    · exact ⟨.panic, d', s, ls, bind_panic g2, g1, rfl, h, rfl, fun _ => g3, fun hb => absurd g3 hb, fun _ h => h⟩
    · refine ⟨.ok (.val o), d', s, ls, bind_ok g2, g1, rfl, h, ?_, by simp, fun _ => ⟨_, rfl, ?_⟩, fun _ h => h⟩
      · cases o with
        | none => exact ⟨g4 rfl, rfl⟩
        | some v => exact ⟨g5 v rfl, rfl⟩
      · simp only [plain, g3]; rfl
  | getMut k f =>
    obtain ⟨d', s', ls', g1, g2, g3, ⟨g4, g5, rfl⟩ | ⟨g4, g5, rfl, g6, g7⟩ | ⟨v, g4, g5, g6, g7⟩⟩ :=
      CellFaults.getMut_run hsmall h k f
        (fun g hg => sameClass_of hsmall (hc k g (by simp [hg]))) d hd
    · exact ⟨.panic, d', s', ls', bind_panic g4, g1, g2, g3, by cases f <;> rfl, fun _ => g5, fun hb => absurd g5 hb,
        fun _ h => h⟩
    · refine ⟨.ok (.val none), d', s', ls', bind_ok g4, g1, g2, g3, by cases f <;> exact ⟨g5, rfl⟩, by simp,
        fun _ => ⟨_, rfl, ?_⟩, fun _ h => h⟩
      cases f with
      | none => simp only [plain, g7]; rfl
      | some f => simp only [plain, g6 f]; rfl
    · cases f with
      | none =>
        obtain ⟨rfl, e2⟩ := g6 rfl
        exact ⟨.ok (.val (some v)), d', s', ls', bind_ok g4, g1, g2, g3, ⟨g5, rfl⟩, by simp,
          fun _ => ⟨_, rfl, by simp only [plain, e2]; rfl⟩, fun _ h => h⟩
      | some f =>
        obtain ⟨e1, e2, e3⟩ := g7 f rfl
        exact ⟨.ok (.val (some v)), d', s', ls', bind_ok g4, g1, g2, g3, e3, by simp,
          fun _ => ⟨_, rfl, by simp only [plain, e1]; rfl⟩, fun _ h => by rw [e2]; exact h⟩
  | takeMultiple ks =>
    obtain ⟨out, ks', e1, e2, e3, e4⟩ := h.1.takeMultipleGo (sortKeys ks) (sortKeys_sorted ks)
    obtain ⟨d', g1, ⟨g2, g3⟩ | g2⟩ := CellFaults.gatherAll_run s.stream (sortKeys ks) d s _ hd e1
    · have : CellFaults.takeMultiple cd ks d s = (.panic, d', s) := by
        unfold CellFaults.takeMultiple; rw [Faults.get_bind]; exact g2
      exact ⟨.panic, d', s, ls, bind_panic this, g1, rfl, h, rfl, fun _ => g3, fun hb => absurd g3 hb, fun _ h => h⟩
    · have : CellFaults.takeMultiple cd ks d s = (.ok (out, ks'), d', s) := by
        unfold CellFaults.takeMultiple; rw [Faults.get_bind]; exact g2
      refine ⟨.ok (.taken out ks'), d', s, ls, bind_ok this, g1, rfl, h, ⟨e2, e3.trans (sortKeys_perm ks), ?_, rfl⟩, by simp,
        fun _ => ⟨_, rfl, by simp only [plain, ByteStream.takeMultiple, e1]; rfl⟩, fun _ h => h⟩
      intro k hk hh
      exact e4 k ((sortKeys_perm ks).symm.subset hk) hh
  | flush =>
    obtain ⟨out, e1, e2⟩ := h.1.flushGo
    obtain ⟨d', g1, ⟨g2, g3⟩ | g2⟩ := CellFaults.emptyGo_run s.stream d
      { s with stream := s.stream.map fun _ => none } _ hd e1
    · exact ⟨.panic, d', _, _, bind_panic (m := CellFaults.flush cd) g2, g1, rfl, flushed_sound h, flat_nil s, fun _ => g3,
        fun hb => absurd g3 hb, fun _ h => by rw [flat_nil]; simp⟩
    · exact ⟨.ok (.base (.many out)), d', _, _, bind_ok (m := CellFaults.flush cd) g2, g1, rfl, flushed_sound h,
        ⟨e2, flat_nil s⟩, by simp, fun _ => ⟨_, rfl, by simp only [plain, ByteStream.flush, e1]; rfl⟩,
        fun _ h => by rw [flat_nil]; simp⟩

theorem Legal.head {cd : Codec (K × V)} {c : Req K V} {cs : List (Req K V)} (h : Legal cd (c :: cs)) : Legal cd [c] :=
  fun k f hm => h k f (by simp only [List.mem_singleton] at hm; simp [hm])

theorem Legal.tail {cd : Codec (K × V)} {c : Req K V} {cs : List (Req K V)} (h : Legal cd (c :: cs)) : Legal cd cs :=
  fun k f hm => h k f (by simp [hm])

/-- The history. -/
theorem run_sound [LinearOrder K] [LinearOrder R] {cd : Codec (K × V)} (hsmall : Small cd) (rank : V → R)
    (calls : List (Req K V)) : ∀ (s : ByteStream) (ls : List (List (K × V))) (d : Disk), Legal cd calls → Sound cd s ls →
    d.Reading →
    ∃ os d' s' ls', run cd rank calls d s = (os, d', s') ∧ d'.Le d ∧ s'.capacity = s.capacity ∧ Sound cd s' ls' ∧
      Accounts ls.flatten calls os ls'.flatten ∧
      (¬ d.Bad → Out.panic ∉ os) ∧
      (Fate.err ∉ d.seeks → total (csz cd) ls.flatten ≤ s.capacity → total (csz cd) ls'.flatten ≤ s.capacity) := by
  induction calls with
  | nil =>
    intro s ls d _ h hd
    exact ⟨[], d, s, ls, rfl, Disk.Le.refl d, rfl, h, rfl, by simp, fun _ h => h⟩
  | cons c calls ih =>
    intro s ls d hl h hd
    obtain ⟨o, d1, s1, ls1, h1, h2, h3, h4, h5, h6, -, h8⟩ := call_run hsmall rank h c hl.head d hd
    obtain ⟨os, d2, s2, ls2, g1, g2, g3, g4, g5, g6, g7⟩ := ih s1 ls1 d1 hl.tail h4 (h2.reading hd)
    refine ⟨o :: os, d2, s2, ls2, ?_, g2.trans h2, g3.trans h3, g4, ⟨_, h5, g5⟩, ?_, ?_⟩
    · simp only [run, h1, g1]
    · intro hb
      simp only [List.mem_cons, not_or]
      exact ⟨fun h => hb (h6 h.symm), g6 (fun h => hb (h2.bad h))⟩
    · intro hs hc
      have := h8 hs hc
      rw [← h3] at this ⊢
      exact g7 (fun h => hs (h2.seekErr h)) this

theorem After.sound [LinearOrder K] [LinearOrder R] {cd : Codec (K × V)} (hsmall : Small cd) {rank : V → R}
    {s : ByteStream} {d : Disk} (h : After cd rank s d) : d.Reading ∧ ∃ ls, Sound cd s ls := by
  obtain ⟨cap, calls, d₀, h0, h1, h2⟩ := h
  obtain ⟨os, d', s', ls', g1, g2, g3, g4, -⟩ := run_sound hsmall rank calls _ _ d₀ h0 (FaultProps.new_sound cd cap) h1
  rw [g1] at h2
  simp only [Prod.mk.injEq] at h2
  obtain ⟨rfl, rfl⟩ := h2
  exact ⟨g2.reading h1, ls', g4⟩

/-! ## Theorems -/

/-- **C120, full statement.**  Whatever operations of the streams fail: no call panics, the container never exceeds its
capacity, and each call tells the truth and does what it says. -/
def C120_full : Prop :=
  ∀ (cd : Codec (Nat × Nat)), Small cd → ∀ (cap : Nat) (calls : List (Req Nat Nat)) (d : Disk), Legal cd calls →
    let r := run cd id calls d (ByteStream.new cap)
    Out.panic ∉ r.1 ∧ r.2.2.size ≤ cap ∧ Accounts [] calls r.1 (stored cd r.2.2)

/-- **C120, partial.**  When only seeks and reads fail (and reads are not short), over any history with `get`, `get_mut`,
`take_multiple` and `flush`, with the panics caught by the user: the answers of the calls account for what is inside, calls
panic only if a seek or a read failed, and the capacity is exceeded only if a seek failed. -/
theorem C120_partial [LinearOrder K] [LinearOrder R] (cd : Codec (K × V)) (hsmall : Small cd) (rank : V → R) (cap : Nat)
    (calls : List (Req K V)) (hl : Legal cd calls) (d : Disk) (hd : d.Reading) :
    let r := run cd rank calls d (ByteStream.new cap)
    Accounts [] calls r.1 (stored cd r.2.2) ∧
    (Out.panic ∈ r.1 → Fate.err ∈ d.seeks ∨ Fate.err ∈ d.reads) ∧
    (Fate.err ∉ d.seeks → r.2.2.size ≤ cap) := by
  obtain ⟨os, d', s', ls', g1, g2, g3, g4, g5, g6, g7⟩ :=
    run_sound hsmall rank calls _ _ d hl (FaultProps.new_sound cd cap) hd
  simp only [g1]
  refine ⟨?_, fun hp => ?_, fun hs => ?_⟩
  · rw [ByteStream.stored_eq g4.1]
    simpa using g5
  · by_contra hb
    exact g6 hb hp
  · have := g7 hs (by simp)
    rw [ByteStream.size, g4.1.size]
    exact this

/-- **C120, each call.**  After any history in which only seeks and reads failed, a call that returns tells the truth
about what is inside, and a call that panics changed nothing, except `flush`, which lost everything. -/
theorem C120_honest [LinearOrder K] [LinearOrder R] (cd : Codec (K × V)) (hsmall : Small cd) (rank : V → R)
    (s : ByteStream) (d : Disk) (h : After cd rank s d) (c : Req K V) (hc : Legal cd [c]) :
    ∃ o d' s', call cd rank c d s = (o, d', s') ∧ Honest (stored cd s) (stored cd s') c o := by
  obtain ⟨hd, ls, hs⟩ := h.sound hsmall
  obtain ⟨o, d', s', ls', h1, h2, h3, h4, h5, -⟩ := call_run hsmall rank hs c hc d hd
  refine ⟨o, d', s', h1, ?_⟩
  rw [ByteStream.stored_eq hs.1, ByteStream.stored_eq h4.1]
  exact h5

/-- **C120, recovery.**  Once seeks and reads work again, every call returns, and does what it does in the model without
failures, whatever failed before. -/
theorem C120_recovers [LinearOrder K] [LinearOrder R] (cd : Codec (K × V)) (hsmall : Small cd) (rank : V → R)
    (s : ByteStream) (d : Disk) (h : After cd rank s d) (hok : Fate.err ∉ d.seeks ∧ Fate.err ∉ d.reads) (c : Req K V)
    (hc : Legal cd [c]) :
    ∃ a d' s', call cd rank c d s = (.ok a, d', s') ∧ plain cd rank s c = .ok (a, s') := by
  obtain ⟨hd, ls, hs⟩ := h.sound hsmall
  obtain ⟨o, d', s', ls', h1, -, -, -, -, -, h7, -⟩ := call_run hsmall rank hs c hc d hd
  obtain ⟨a, rfl, h8⟩ := h7 (fun hb => hb.elim hok.1 hok.2)
  exact ⟨a, d', s', h1, h8⟩

/-- **C120: a chunk that does not decode stops `pop` for good.**  In any state in which the bytes of a stream do not decode,
however well the streams then work, `pop` panics and changes nothing: it will panic again. -/
theorem C120_poisoned [LinearOrder K] [LinearOrder R] (cd : Codec (K × V)) (rank : V → R) (s : ByteStream)
    (h : ∃ v, some v ∈ s.stream ∧ v.iter cd = .panic) (d : Disk) (hd : d.Reading) (n : Nat) :
    ∃ d', call cd rank (.base (.pop n)) d s = (.panic, d', s) := by
  obtain ⟨d1, -, h2⟩ := CellFaults.slotsGo_stuck (σ := ByteStream) rank s.stream 0 d s hd h
  have hp : Faults.pop cd rank n d s = (.panic, d1, s) := by
    unfold Faults.pop
    rw [Faults.get_bind]
    exact bind_panic h2
  have hc : Faults.call cd rank (.pop n) d s = (.panic, d1, s) := bind_panic hp
  exact ⟨d1, bind_panic hc⟩

theorem emptyGo_lost {σ : Type} (cd : Codec (K × V)) (st : List (Option IOVec)) (h : ∃ v, some v ∈ st) (s : σ) :
    ∃ d', CellFaults.emptyGo cd st { reads := [.err] } s = (.panic, d', s) := by
  induction st with
  | nil => obtain ⟨v, hv⟩ := h; simp at hv
  | cons o st ih =>
    cases o with
    | none => exact ih (by obtain ⟨v, hv⟩ := h; exact ⟨v, by simpa using hv⟩)
    | some v =>
      unfold CellFaults.emptyGo
      have hb : Faults.bufRead [] v.chunk { reads := [.err] } v.stream = (.err, {}, v.stream) := by
        unfold Faults.bufRead
        split
        · exact bind_err rfl
        · rw [if_pos rfl]
          exact bind_err rfl
      refine ⟨{}, bind_panic (CellFaults.clone_run (CellFaults.expect_err (s' := v.stream) ?_) s)⟩
      unfold Faults.scanGo
      exact bind_err hb

/-- **C120: `flush` loses everything when its first read fails.**  In any state in which a stream is open. -/
theorem C120_flush_loses [LinearOrder K] [LinearOrder R] (cd : Codec (K × V)) (hsmall : Small cd) (rank : V → R)
    (s : ByteStream) (h : ∃ d, After cd rank s d) (hopen : ∃ v, some v ∈ s.stream) :
    ∃ d' s', call cd rank .flush { reads := [.err] } s = (.panic, d', s') ∧ stored cd s' = [] := by
  obtain ⟨d, h⟩ := h
  obtain ⟨-, ls, hs⟩ := h.sound hsmall
  obtain ⟨d', h1⟩ := emptyGo_lost cd s.stream hopen { s with stream := s.stream.map fun _ => none }
  refine ⟨d', _, bind_panic (m := CellFaults.flush cd) h1, ?_⟩
  have := flushed_sound hs
  rw [ByteStream.stored_eq this.1, flat_nil]

/-- **C120: what only reads changes nothing.**  Whatever fails, and in whatever state, `contains`, `get`, `take_multiple` and
`get_mut` whose cell is only read leave all streams as they were, bytes and positions. -/
theorem C120_readonly [LinearOrder K] [LinearOrder R] (cd : Codec (K × V)) (rank : V → R) (s : ByteStream) (d : Disk)
    (k : K) (ks : List K) :
    (call cd rank (.base (.contains k)) d s).2.2 = s ∧ (call cd rank (.get k) d s).2.2 = s ∧
    (call cd rank (.getMut k none) d s).2.2 = s ∧ (call cd rank (.takeMultiple ks) d s).2.2 = s := by
  refine ⟨?_, ?_, ?_, ?_⟩
  · exact CellFaults.Keeps.bind (CellFaults.Keeps.bind (CellFaults.Keeps.get.bind fun s => CellFaults.Keeps.containsGo k _)
      fun _ => CellFaults.Keeps.pure _) (fun _ => CellFaults.Keeps.pure _) d s
  · exact CellFaults.Keeps.bind (CellFaults.Keeps.get.bind fun s =>
      (CellFaults.Keeps.lookGo (fun _ _ => CellFaults.Keeps.clone _ _) k s.stream 0).bind fun _ => CellFaults.Keeps.pure _)
      (fun _ => CellFaults.Keeps.pure _) d s
  · refine CellFaults.Keeps.bind (CellFaults.Keeps.get.bind fun s =>
      (CellFaults.Keeps.lookGo (fun _ _ => CellFaults.Keeps.clone _ _) k s.stream 0).bind fun o => ?_)
      (fun _ => CellFaults.Keeps.pure _) d s
    rcases o with _ | ⟨i, j, e⟩
    · exact CellFaults.Keeps.pure _
    · exact CellFaults.Keeps.pure _
  · exact CellFaults.Keeps.bind (m := CellFaults.takeMultiple cd ks)
      (CellFaults.Keeps.get.bind fun s => CellFaults.Keeps.gatherAll (cd := cd) s.stream (sortKeys ks))
      (fun _ => CellFaults.Keeps.pure _) d s

/-- **C120: a write that fails at once** (an error, or no byte written).  `get_mut` of a key inside and a write in its cell:
the drop of the cell panics and the container is unchanged. -/
theorem C120_write_fails [LinearOrder K] [LinearOrder R] (cd : Codec (K × V)) (hsmall : Small cd) (rank : V → R)
    (s : ByteStream) (h : ∃ d, After cd rank s d) (k : K) (hk : HasKey (stored cd s) k) (f : V → V)
    (hf : ∀ v, ∃ b, cd.enc (k, f v) = some b ∧ b ≠ []) (x : Fate) (hx : x = .err ∨ x = .cut 0) (w : List Fate) :
    ∃ d', call cd rank (.getMut k (some f)) { writes := x :: w } s = (.panic, d', s) := by
  obtain ⟨d, h⟩ := h
  obtain ⟨-, ls, hs⟩ := h.sound hsmall
  rw [ByteStream.stored_eq hs.1] at hk
  obtain ⟨a, j, l, e, g1, g2, g3, g4, g5⟩ := CellFaults.lookMut_writes hs k hk (x :: w)
  obtain ⟨v, k1, -⟩ := ByteStream.items_get hs.1 g3 g4
  obtain ⟨b, b1, b2⟩ := hf e.2
  rw [← g5] at b1
  obtain ⟨d', vs, w1, w2⟩ := CellFaults.dropCell_fails v.chunk j (e.1, f e.2) b b1 b2 x hx w v.stream
  have hcell : CellFaults.onCell a (fun c => CellFaults.dropCell cd c j (e.1, f e.2)) { writes := x :: w } s =
      (.panic, d', s) := by
    unfold CellFaults.onCell
    simp only [k1, w1, w2]
    congr 2
    cases s
    simp only at k1 ⊢
    rw [Faults.set_self k1]
  have hg : CellFaults.getMut cd k (some f) { writes := x :: w } s = (.panic, d', s) := by
    unfold CellFaults.getMut
    rw [Faults.get_bind, bind_ok g1]
    exact bind_panic hcell
  exact ⟨d', bind_panic hg⟩

/-- **C120: short writes.**  Writes may write fewer bytes than asked, as long as each writes one: the cell is written as in
the model without failures. -/
theorem C120_short_writes [LinearOrder K] [LinearOrder R] (cd : Codec (K × V)) (hsmall : Small cd) (rank : V → R)
    (s : ByteStream) (h : ∃ d, After cd rank s d) (k : K) (hk : HasKey (stored cd s) k) (f : V → V)
    (hf : ∀ k v c, IsChunkOf cd (k, v) c → IsChunkOf cd (k, f v) c) (w : List Fate) (hw : Fate.err ∉ w)
    (hw0 : Fate.cut 0 ∉ w) :
    ∃ v d' s', call cd rank (.getMut k (some f)) { writes := w } s = (.ok (.val (some v)), d', s') ∧
      ByteStream.getMut cd s k f = .ok (some v, s') ∧
      ∃ rest, (stored cd s).Perm ((k, v) :: rest) ∧ (stored cd s').Perm ((k, f v) :: rest) := by
  obtain ⟨d, h⟩ := h
  obtain ⟨-, ls, hs⟩ := h.sound hsmall
  have hkey := hk
  rw [ByteStream.stored_eq hs.1] at hk ⊢
  obtain ⟨a, j, l, e, g1, g2, g3, g4, g5⟩ := CellFaults.lookMut_writes hs k hk w
  obtain ⟨v, k1, k2, k3, ⟨m, k4⟩, k5⟩ := ByteStream.items_get hs.1 g3 g4
  obtain ⟨ek, ev⟩ := e
  simp only at g5
  subst g5
  have hc := k5 _ (List.mem_of_getElem? g4)
  obtain ⟨b', hb', hb2⟩ := sameClass_of hsmall hf a ek ev hc
  have hlt : j < l.length := (List.getElem?_eq_some_iff.1 g4).1
  have hble : b'.length ≤ v.chunk := by
    obtain ⟨i', c1, c2, -⟩ := chunkSize_spec b'.length (hsmall _ _ hb')
    rw [hb2] at c1
    injection c1 with c1
    injection c1 with c1 c1'
    rw [k3, c1']; exact c2
  obtain ⟨d2, vs, w1, ⟨-, w3, -⟩ | ⟨w2, w3, w4⟩⟩ := CellFaults.dropCell_run k4 j (ek, f ev) hlt ⟨b', hb', hble⟩
    { writes := w } ⟨hw, hw0⟩
  · simp at w3
  · have hset : Sound cd { s with stream := s.stream.set a (some ⟨⟨vs.vec, v.stream.pos⟩, v.chunk⟩) }
        (ls.set a (l.set j (ek, f ev))) := by
      refine ⟨hs.1.set a _ _ ?_, by simpa using hs.2⟩
      rw [Nat.zero_add]
      refine ⟨k3, ⟨m, w3⟩, ?_⟩
      intro x hx
      rcases List.mem_or_eq_of_mem_set hx with hx | rfl
      · exact k5 x hx
      · exact ⟨b', hb', hb2⟩
    have hcell : CellFaults.onCell a (fun c => CellFaults.dropCell cd c j (ek, f ev)) { writes := w } s =
        (.ok (), d2, { s with stream := s.stream.set a (some ⟨⟨vs.vec, v.stream.pos⟩, v.chunk⟩) }) := by
      unfold CellFaults.onCell
      simp only [k1, w2]
    obtain ⟨rest, r1, r2⟩ := CellFaults.replace_perm (e' := (ek, f ev)) g3 g4
    have hg : CellFaults.getMut cd ek (some f) { writes := w } s =
        (.ok (some ev), d2, { s with stream := s.stream.set a (some ⟨⟨vs.vec, v.stream.pos⟩, v.chunk⟩) }) := by
      unfold CellFaults.getMut
      rw [Faults.get_bind, bind_ok g1]
      exact bind_ok hcell
    refine ⟨ev, d2, _, bind_ok hg, by simp [ByteStream.getMut, g2, k1, k2, g4, w4], rest, r1, ?_⟩
    rw [ByteStream.stored_eq hset.1]
    exact r2

/-! ## Histories where the promises break -/

/-- Elements of three bytes, the value twice; bytes where the two differ do not decode. -/
def twice : Codec (Nat × Nat) where
  enc e := if e.1 < 256 ∧ e.2 < 256 then some [UInt8.ofNat e.1, UInt8.ofNat e.2, UInt8.ofNat e.2] else none
  dec
    | a :: b :: c :: _ => if b = c then some (a.toNat, b.toNat) else none
    | _ => none
  law o b pad h := by
    split at h
    · rename_i hb
      simp only [Option.some.injEq] at h
      subst h
      simp only [List.cons_append, List.nil_append, UInt8.toNat_ofNat', if_true, Option.some.injEq]
      ext <;> simp <;> omega
    · simp at h

theorem twice_small : Small twice := by
  intro e b h
  unfold twice at h
  simp only at h
  split at h
  · simp only [Option.some.injEq] at h
    subst h
    simp
  · simp at h

/-- Everything takes chunks of four bytes. -/
theorem twice_chunk (e : Nat × Nat) (c : Nat) : IsChunkOf twice e c ↔ (e.1 < 256 ∧ e.2 < 256) ∧ c = 4 := by
  have henc : ∀ h : e.1 < 256 ∧ e.2 < 256,
      twice.enc e = some [UInt8.ofNat e.1, UInt8.ofNat e.2, UInt8.ofNat e.2] := fun h => if_pos h
  constructor
  · rintro ⟨b, i, h1, h2, h3, h4, -⟩
    by_cases hb : e.1 < 256 ∧ e.2 < 256
    · rw [henc hb] at h1
      simp only [Option.some.injEq] at h1
      subst h1
      refine ⟨hb, ?_⟩
      have h5 := h4 (by simp) 2 (by simp)
      simp only [List.length_cons, List.length_nil] at h3
      subst h2
      have hi : i ≤ 2 := (Nat.pow_le_pow_iff_right (by omega)).1 h5
      have : i = 0 ∨ i = 1 ∨ i = 2 := by omega
      rcases this with rfl | rfl | rfl <;> simp at h3 ⊢
    · simp [twice, hb] at h1
  · rintro ⟨hb, rfl⟩
    refine ⟨_, 2, henc hb, rfl, by simp, fun _ j hj => ?_, by simp⟩
    simp only [List.length_cons, List.length_nil] at hj
    have : 2 ≤ j := by
      by_contra h
      have : j = 0 ∨ j = 1 := by omega
      rcases this with rfl | rfl <;> simp at hj
    exact Nat.pow_le_pow_right (n := 2) (by omega) this

/-- Two elements, and the value of the first set to 3. -/
def edit : List (Req Nat Nat) := [.base (.push [(1, 1), (2, 2)]), .getMut 1 (some fun _ => 3)]

theorem edit_legal : Legal twice edit := by
  intro k f hm k v c h
  simp only [edit, List.mem_cons, reduceCtorEq, Req.getMut.injEq, Option.some.injEq, List.not_mem_nil, or_false,
    false_or] at hm
  obtain ⟨-, rfl⟩ := hm
  rw [twice_chunk] at h ⊢
  exact ⟨⟨h.1.1, by simp⟩, h.2⟩

/-- The calls that follow. -/
def rest : List (Req Nat Nat) := [.base (.contains 2), .base (.take 2), .base (.pop 1), .get 2, .getMut 2 none,
  .takeMultiple [2], .base (.push [(4, 4)]), .get 4]

/-- A write of a cell cut in the middle (two bytes, then an error): the drop of the cell panics and leaves a chunk that does
not decode; although nothing fails any more, the other element cannot be found, taken or popped, nor the elements pushed
afterwards. -/
theorem C120_torn :
    (run twice id (edit ++ rest) { writes := [.ok, .ok, .cut 2, .err] } (ByteStream.new 100)).1 =
      [.ok (.base (.many [])), .panic, .panic, .panic, .panic, .panic, .panic, .panic, .ok (.base (.many [])), .panic] := by
  decide +kernel

/-- **C120 is false in full**: calls panic, and the truth is not told. -/
theorem C120_false : ¬ C120_full ∧
    (∃ (calls : List (Req Nat Nat)) (d : Disk), Legal twice calls ∧
      Out.panic ∈ (run twice id calls d (ByteStream.new 100)).1) ∧
    (∃ (calls : List (Req Nat Nat)) (d : Disk), Legal twice calls ∧ let r := run twice id calls d (ByteStream.new 100)
      Out.panic ∉ r.1 ∧ ¬ Accounts [] calls r.1 (stored twice r.2.2)) := by
  have h1 : Out.panic ∈ (run twice id edit { reads := [.err] } (ByteStream.new 100)).1 := by decide +kernel
  have hl : Legal twice [.base (.push [(1, 1)]), .get 1] := by intro k f hm; simp at hm
  refine ⟨fun h => (h twice twice_small 100 edit _ edit_legal).1 h1, ⟨_, _, edit_legal, h1⟩,
    ⟨[.base (.push [(1, 1)]), .get 1], { reads := [.cut 0] }, hl, by decide +kernel, ?_⟩⟩
  have h2 : (run twice id [.base (.push [(1, 1)]), .get 1] { reads := [.cut 0] } (ByteStream.new 100)).1 =
      [.ok (.base (.many [])), .ok (.val none)] := by decide +kernel
  rw [h2]
  rintro ⟨m1, h3, m2, h4, -⟩
  have h5 : ([] ++ [((1 : Nat), (1 : Nat))]).Perm ([] ++ m1) := h3
  exact h4.1 ⟨1, h5.subset (by simp)⟩

/-! ## The hypotheses are met -/

/-- A history with a failed read, a write through a cell, a `take_multiple`, and a failed `flush`. -/
def mixed : List (Req Nat Nat) := edit ++ [.get 1, .takeMultiple [2, 5], .getMut 2 none, .get 1, .flush, .get 1]

example : Legal twice mixed := by
  intro k f hm
  refine edit_legal k f ?_
  simpa [mixed] using hm

example : (run twice id mixed { reads := [.ok, .ok, .ok, .ok, .ok, .err] } (ByteStream.new 100)).1 =
    [.ok (.base (.many [])), .ok (.val (some 1)), .ok (.val (some 3)), .ok (.taken [(2, 2)] [5]), .ok (.val (some 2)),
      .panic, .ok (.base (.many [])), .ok (.val none)] := by decide +kernel

example : ({ reads := [.ok, .ok, .ok, .ok, .ok, .err] } : Disk).Reading :=
  ⟨by simp, by simp, by simp⟩

/-- A state with an element, as in the theorems on writes. -/
example : ∃ s d, After twice (id : Nat → Nat) s d ∧ HasKey (stored twice s) 1 ∧
    (∀ v : Nat, ∃ b, twice.enc (1, (fun _ => 3) v) = some b ∧ b ≠ []) ∧ (∃ v, some v ∈ s.stream) := by
  refine ⟨_, _, ⟨100, edit, {}, edit_legal, ⟨by simp, by simp, by simp⟩, rfl⟩, ?_, fun v => ⟨_, rfl, by simp⟩, ?_⟩
  · exact ⟨3, by decide +kernel⟩
  · exact ⟨⟨⟨[1, 3, 3, 0, 2, 2, 2, 0], 8⟩, 4⟩, by decide +kernel⟩

/-- The state of `C120_torn` has a chunk that does not decode. -/
example : ∃ v, some v ∈ (run twice id edit { writes := [.ok, .ok, .cut 2, .err] } (ByteStream.new 100)).2.2.stream ∧
    v.iter twice = .panic := by
  refine ⟨⟨⟨[1, 3, 1, 0, 2, 2, 2, 0], 8⟩, 4⟩, by decide +kernel, rfl⟩

end Byoc.CellFaultProps
