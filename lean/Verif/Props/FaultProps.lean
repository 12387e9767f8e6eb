import Verif.Proofs.Faults
import Verif.Props.StreamProps

/-!
# C117: `Stream` containers when the operations of their streams fail
-/

namespace Byoc.FaultProps

open Byoc.Faults
open ByteStream (Small stored csz)

variable {K V R : Type}

/-! ## Specification -/

/-- What a call gives to the container. -/
def given : Req K V → List (K × V)
  | .push l => l
  | _ => []

/-- What a call hands back. -/
def handed : Out (Ans K V) → List (K × V)
  | .ok (.opt (some e)) => [e]
  | .ok (.many l) => l
  | _ => []

/-- A call that returned told the truth, with `before` in the container, and left `after`; a call that panicked is not a
`push` and changed nothing. -/
def Honest (before after : List (K × V)) : Req K V → Out (Ans K V) → Prop
  | .contains k, .ok (.bool b) => (b = true ↔ HasKey before k) ∧ after = before
  | .take k, .ok (.opt none) => ¬ HasKey before k ∧ after = before
  | .take k, .ok (.opt (some e)) => e.1 = k ∧ before.Perm (e :: after)
  | .pop _, .ok (.many out) => before.Perm (out ++ after)
  | .push l, .ok (.many out) => (before ++ l).Perm (out ++ after)
  | .push _, .panic => False
  | _, .panic => after = before
  | _, _ => False

/-- The calls of the model without failures. -/
def plain [DecidableEq K] [LinearOrder R] (cd : Codec (K × V)) (rank : V → R) (s : ByteStream) :
    Req K V → Res (Ans K V × ByteStream)
  | .contains k => do let b ← ByteStream.containsGo cd k s.stream; pure (.bool b, s)
  | .take k => do let (o, s) ← ByteStream.take cd s k; pure (.opt o, s)
  | .pop n => do let (l, s) ← ByteStream.popBy cd rank s n; pure (.many l, s)
  | .push l => do let (l, s) ← ByteStream.push cd s l; pure (.many l, s)

/-- The state after a history on an empty container. -/
def After [DecidableEq K] [LinearOrder R] (cd : Codec (K × V)) (rank : V → R) (s : ByteStream) (d : Disk) : Prop :=
  ∃ (cap : Nat) (calls : List (Req K V)) (d₀ : Disk), d₀.Reading ∧
    (run cd rank calls d₀ (ByteStream.new cap)).2 = (d, s)

/-! ## Proofs -/

/-- One call on a sound state. -/
theorem call_run [DecidableEq K] [LinearOrder R] {cd : Codec (K × V)} (hsmall : Small cd) (rank : V → R)
    {s : ByteStream} {ls : List (List (K × V))} (h : Sound cd s ls) (c : Req K V) (d : Disk) (hd : d.Reading) :
    ∃ o d' s' ls', call cd rank c d s = (o, d', s') ∧ d'.Le d ∧ s'.capacity = s.capacity ∧ Sound cd s' ls' ∧
      Honest ls.flatten ls'.flatten c o ∧
      (o = .panic → d.Bad) ∧
      (¬ d.Bad → ∃ a, o = .ok a ∧ plain cd rank s c = .ok (a, s')) ∧
      (Fate.err ∉ d.seeks → total (csz cd) ls.flatten ≤ s.capacity → total (csz cd) ls'.flatten ≤ s.capacity) := by
  cases c with
  | contains k =>
    obtain ⟨b0, hb1, -⟩ := h.1.contains k
    obtain ⟨d', g1, ⟨g2, g3⟩ | ⟨b, g2, g3⟩⟩ := contains_run h k d hd
    · exact ⟨.panic, d', s, ls, bind_panic g2, g1, rfl, h, rfl, fun _ => g3, fun hb => absurd g3 hb, fun _ h => h⟩
    · obtain ⟨d'', e1, e2 | e2⟩ := containsGo_run (σ := ByteStream) k s.stream d s b0 hd hb1
      · have : contains cd k d s = (.panic, d'', s) := by unfold contains; rw [get_bind]; exact e2.1
        rw [g2] at this; simp at this
      · have : contains cd k d s = (.ok b0, d'', s) := by unfold contains; rw [get_bind]; exact e2
        rw [g2] at this
        simp only [Prod.mk.injEq, Out.ok.injEq] at this
        obtain ⟨rfl, -, -⟩ := this
        exact ⟨.ok (.bool b), d', s, ls, bind_ok g2, g1, rfl, h, ⟨g3, rfl⟩, by simp,
          fun _ => ⟨_, rfl, by simp only [plain, hb1]; rfl⟩, fun _ h => h⟩
  | take k =>
    obtain ⟨d', s', ls', g1, g2, g3, ⟨g4, g5, rfl⟩ | ⟨g4, g5, rfl⟩ | ⟨e, g4, g5, g6, g7⟩⟩ := take_run h k d hd
    · exact ⟨.panic, d', s', ls', bind_panic g4, g1, g2, g3, rfl, fun _ => g5, fun hb => absurd g5 hb, fun _ h => h⟩
    · refine ⟨.ok (.opt none), d', s', ls', bind_ok g4, g1, g2, g3, ⟨g5, rfl⟩, by simp, fun _ => ⟨_, rfl, ?_⟩, fun _ h => h⟩
      rcases h.1.find k with ⟨f1, -⟩ | ⟨a, j, l, e, f1, f2, f3, f4⟩
      · have hs : s' = s := by
          obtain ⟨d1, e1, e2 | e2⟩ := findGo_run (σ := ByteStream) k s.stream 0 d s none hd f1
          · have : take cd k d s = (.panic, d1, s) := by unfold take; rw [get_bind]; exact bind_panic e2.1
            rw [g4] at this; simp at this
          · have : take cd k d s = (.ok none, d1, s) := by unfold take; rw [get_bind]; exact bind_ok e2
            rw [g4] at this
            simp only [Prod.mk.injEq] at this
            exact this.2.2
        simp only [plain, ByteStream.take, f1, hs]; rfl
      · exact absurd ⟨e.2, by rw [← f4]; exact List.mem_flatten.2 ⟨l, List.mem_of_getElem? f2, List.mem_of_getElem? f3⟩⟩ g5
    · refine ⟨.ok (.opt (some e)), d', s', ls', bind_ok g4, g1, g2, g3, ⟨g5, g6⟩, by simp,
        fun _ => ⟨_, rfl, by simp only [plain, g7]; rfl⟩, fun _ h => ?_⟩
      have := total_perm (csz cd) g6
      rw [total_cons] at this
      omega
  | pop n =>
    obtain ⟨d', s', ls', g1, g2, g3, ⟨g4, g5, rfl⟩ | ⟨out, g4, g5, g6⟩⟩ := pop_run rank h n d hd
    · exact ⟨.panic, d', s', ls', bind_panic g4, g1, g2, g3, rfl, fun _ => g5, fun hb => absurd g5 hb, fun _ h => h⟩
    · refine ⟨.ok (.many out), d', s', ls', bind_ok g4, g1, g2, g3, g5.symm, by simp,
        fun hb => ⟨_, rfl, by simp only [plain, g6 hb]; rfl⟩, fun _ h => ?_⟩
      have := total_perm (csz cd) g5
      rw [total_append] at this
      omega
  | push l =>
    obtain ⟨d', s', ls', out, g1, g2, g3, g4, g5, g6, g7⟩ := push_run hsmall h l d hd
    refine ⟨.ok (.many out), d', s', ls', bind_ok g4, g1, g2, g3, ?_, by simp,
      fun hb => ⟨_, rfl, by simp only [plain, g7 (fun h => hb (Or.inl h))]; rfl⟩, g6⟩
    exact (List.perm_append_comm.trans g5).symm

/-- The history. -/
theorem run_sound [DecidableEq K] [LinearOrder R] {cd : Codec (K × V)} (hsmall : Small cd) (rank : V → R)
    (calls : List (Req K V)) : ∀ (s : ByteStream) (ls : List (List (K × V))) (d : Disk), Sound cd s ls → d.Reading →
    ∃ os d' s' ls', run cd rank calls d s = (os, d', s') ∧ d'.Le d ∧ s'.capacity = s.capacity ∧ Sound cd s' ls' ∧
      os.length = calls.length ∧
      (ls'.flatten ++ os.flatMap handed).Perm (ls.flatten ++ calls.flatMap given) ∧
      (¬ d.Bad → Out.panic ∉ os) ∧
      (Fate.err ∉ d.seeks → total (csz cd) ls.flatten ≤ s.capacity → total (csz cd) ls'.flatten ≤ s.capacity) := by
  induction calls with
  | nil =>
    intro s ls d h hd
    exact ⟨[], d, s, ls, rfl, Disk.Le.refl d, rfl, h, rfl, by simp, by simp, fun _ h => h⟩
  | cons c calls ih =>
    intro s ls d h hd
    obtain ⟨o, d1, s1, ls1, h1, h2, h3, h4, h5, h6, -, h8⟩ := call_run hsmall rank h c d hd
    obtain ⟨os, d2, s2, ls2, g1, g2, g3, g4, g5, g6, g7, g8⟩ := ih s1 ls1 d1 h4 (h2.reading hd)
    refine ⟨o :: os, d2, s2, ls2, ?_, g2.trans h2, g3.trans h3, g4, by simp [g5], ?_, ?_, ?_⟩
    · simp only [run, h1, g1]
    · have hp : (ls1.flatten ++ handed o).Perm (ls.flatten ++ given c) := by
        cases c <;> rcases o with (b | (_ | e) | out) | _ | _ <;> simp only [Honest] at h5 <;>
          simp only [handed, given, List.append_nil]
        · rw [h5.2]
        · rw [h5]
        · rw [h5.2]
        · exact (List.perm_append_comm.trans h5.2.symm)
        · rw [h5]
        · exact (List.perm_append_comm.trans h5.symm)
        · rw [h5]
        · exact (List.perm_append_comm.trans h5.symm)
      simp only [List.flatMap_cons]
      perms [g6, hp]
    · intro hb
      simp only [List.mem_cons, not_or]
      exact ⟨fun h => hb (h6 h.symm), g7 (fun h => hb (h2.bad h))⟩
    · intro hs hc
      have := h8 hs hc
      rw [← h3] at this ⊢
      exact g8 (fun h => hs (h2.seekErr h)) this

theorem new_sound (cd : Codec (K × V)) (cap : Nat) : Sound cd (ByteStream.new cap) (List.replicate 64 []) :=
  ⟨ByteStream.new_streams 64 0, by simp⟩

theorem After.sound [DecidableEq K] [LinearOrder R] {cd : Codec (K × V)} (hsmall : Small cd) {rank : V → R}
    {s : ByteStream} {d : Disk} (h : After cd rank s d) : d.Reading ∧ ∃ ls, Sound cd s ls := by
  obtain ⟨cap, calls, d₀, h1, h2⟩ := h
  obtain ⟨os, d', s', ls', g1, g2, g3, g4, -⟩ := run_sound hsmall rank calls _ _ d₀ (new_sound cd cap) h1
  rw [g1] at h2
  simp only [Prod.mk.injEq] at h2
  obtain ⟨rfl, rfl⟩ := h2
  exact ⟨g2.reading h1, ls', g4⟩

/-! ## Theorems -/

/-- **C117, full statement.**  Whatever operations of the streams fail: no call panics, the container never exceeds its
capacity, and everything given to it is inside or was handed back. -/
def C117_full : Prop :=
  ∀ (cd : Codec (Nat × Nat)), Small cd → ∀ (cap : Nat) (calls : List (Req Nat Nat)) (d : Disk),
    let r := run cd id calls d (ByteStream.new cap)
    Out.panic ∉ r.1 ∧ r.2.2.size ≤ cap ∧ (stored cd r.2.2 ++ r.1.flatMap handed).Perm (calls.flatMap given)

/-- **C117, partial.**  When only seeks and reads fail (and reads are not short), over any history, with the panics caught
by the user: everything given is inside or was handed back, calls panic only if a seek or a read failed, and the capacity
is exceeded only if a seek failed. -/
theorem C117_partial [DecidableEq K] [LinearOrder R] (cd : Codec (K × V)) (hsmall : Small cd) (rank : V → R) (cap : Nat)
    (calls : List (Req K V)) (d : Disk) (hd : d.Reading) :
    let r := run cd rank calls d (ByteStream.new cap)
    (stored cd r.2.2 ++ r.1.flatMap handed).Perm (calls.flatMap given) ∧
    (Out.panic ∈ r.1 → Fate.err ∈ d.seeks ∨ Fate.err ∈ d.reads) ∧
    (Fate.err ∉ d.seeks → r.2.2.size ≤ cap) := by
  obtain ⟨os, d', s', ls', g1, g2, g3, g4, g5, g6, g7, g8⟩ :=
    run_sound hsmall rank calls _ _ d (new_sound cd cap) hd
  simp only [g1]
  refine ⟨?_, fun hp => ?_, fun hs => ?_⟩
  · rw [ByteStream.stored_eq g4.1]
    simpa using g6
  · by_contra hb
    exact g7 hb hp
  · have := g8 hs (by simp)
    rw [ByteStream.size, g4.1.size]
    exact this

/-- **C117, each call.**  After any history in which only seeks and reads failed, a call that returns tells the truth
about what is inside, and a call that panics changed nothing and is not a `push`. -/
theorem C117_honest [DecidableEq K] [LinearOrder R] (cd : Codec (K × V)) (hsmall : Small cd) (rank : V → R)
    (s : ByteStream) (d : Disk) (h : After cd rank s d) (c : Req K V) :
    ∃ o d' s', call cd rank c d s = (o, d', s') ∧ Honest (stored cd s) (stored cd s') c o := by
  obtain ⟨hd, ls, hs⟩ := h.sound hsmall
  obtain ⟨o, d', s', ls', h1, h2, h3, h4, h5, -⟩ := call_run hsmall rank hs c d hd
  refine ⟨o, d', s', h1, ?_⟩
  rw [ByteStream.stored_eq hs.1, ByteStream.stored_eq h4.1]
  exact h5

/-- **C117, recovery.**  Once seeks and reads work again, every call returns, and does what it does in the model without
failures, whatever failed before. -/
theorem C117_recovers [DecidableEq K] [LinearOrder R] (cd : Codec (K × V)) (hsmall : Small cd) (rank : V → R)
    (s : ByteStream) (d : Disk) (h : After cd rank s d) (hok : Fate.err ∉ d.seeks ∧ Fate.err ∉ d.reads) (c : Req K V) :
    ∃ a d' s', call cd rank c d s = (.ok a, d', s') ∧ plain cd rank s c = .ok (a, s') := by
  obtain ⟨hd, ls, hs⟩ := h.sound hsmall
  obtain ⟨o, d', s', ls', h1, -, -, -, -, -, h7, -⟩ := call_run hsmall rank hs c d hd
  obtain ⟨a, rfl, h8⟩ := h7 (fun hb => hb.elim hok.1 hok.2)
  exact ⟨a, d', s', h1, h8⟩

/-- **C117: a failed write loses the element.**  An element of less than 8192 bytes for which there is room: the write
fails, `push` returns nothing, and the element is not inside. -/
theorem C117_lost [DecidableEq K] [LinearOrder R] (cd : Codec (K × V)) (hsmall : Small cd) (rank : V → R)
    (s : ByteStream) (h : ∃ d, After cd rank s d) (e : K × V) (he : cd.enc e ≠ none) (hc : csz cd e < 8192)
    (hfit : csz cd e + s.size ≤ s.capacity) :
    ∃ d' s', call cd rank (.push [e]) { writes := [.err] } s = (.ok (.many []), d', s') ∧
      stored cd s' = stored cd s := by
  obtain ⟨d, h⟩ := h
  obtain ⟨-, ls, hs⟩ := h.sound hsmall
  obtain ⟨i, lst, s1, v, m, ch, h1, h2, h3, h4, h5, h6, h7, h8, h9, h10⟩ := push_one hsmall hs e he { writes := [.err] }
    { writes := [.err] } s.size (sizeGo_quiet s.stream rfl s) hfit
  have hdrain : drain (ch.length + 1) ch { writes := [.err] } ⟨v.stream.vec, v.stream.vec.length⟩ =
      (.ok (), { writes := [] }, ⟨v.stream.vec, v.stream.vec.length⟩) := by
    unfold drain
    split
    · rename_i hnil
      rw [hnil] at h7
      have := Nat.two_pow_pos i
      simp at h7
      omega
    · rfl
  have happ : append cd (2 ^ i) e { writes := [.err] } v.stream =
      (.ok .done, { writes := [] }, ⟨v.stream.vec, v.stream.vec.length⟩) := by
    unfold append
    rw [bind_ok (attempt_ok (seek_quiet (.end 0) rfl v.stream)), VecStream.seek_end]
    simp only [h6]
    rw [if_pos (by rw [h7, ← h2]; exact hc)]
    exact bind_ok hdrain
  have hsound : Sound cd { s1 with stream := s1.stream.set i (some ⟨⟨v.stream.vec, v.stream.vec.length⟩, 2 ^ i⟩) } ls := by
    refine ⟨?_, hs.2⟩
    rw [← set_self h1]
    refine h8.1.set i _ _ ?_
    rw [Nat.zero_add]
    refine ⟨rfl, ⟨lst.length, ?_⟩, fun x hx => h5 x (by simp [hx])⟩
    have := Faults.Repr.at h4 ⟨v.stream.vec, v.stream.vec.length⟩ lst.length rfl h4.vec_length (le_refl _)
    rwa [h3] at this
  refine ⟨_, _, bind_ok (h10 _ _ _ happ), ?_⟩
  rw [ByteStream.stored_eq hsound.1, ByteStream.stored_eq hs.1]

/-- **C117: … or panics.**  An element of 8192 bytes or more for which there is room: the write fails, `push` panics. -/
theorem C117_panics [DecidableEq K] [LinearOrder R] (cd : Codec (K × V)) (hsmall : Small cd) (rank : V → R)
    (s : ByteStream) (h : ∃ d, After cd rank s d) (e : K × V) (he : cd.enc e ≠ none) (hc : 8192 ≤ csz cd e)
    (hfit : csz cd e + s.size ≤ s.capacity) :
    ∃ d' s', call cd rank (.push [e]) { writes := [.err] } s = (.panic, d', s') ∧ stored cd s' = stored cd s := by
  obtain ⟨d, h⟩ := h
  obtain ⟨-, ls, hs⟩ := h.sound hsmall
  obtain ⟨i, lst, s1, v, m, ch, h1, h2, h3, h4, h5, h6, h7, h8, h9, h10⟩ := push_one hsmall hs e he { writes := [.err] }
    { writes := [.err] } s.size (sizeGo_quiet s.stream rfl s) hfit
  have hw : write ch { writes := [.err] } ⟨v.stream.vec, v.stream.vec.length⟩ =
      (.err, { writes := [] }, ⟨v.stream.vec, v.stream.vec.length⟩) := rfl
  have happ : append cd (2 ^ i) e { writes := [.err] } v.stream =
      (.ok .gone, { writes := [] }, ⟨v.stream.vec, v.stream.vec.length⟩) := by
    unfold append
    rw [bind_ok (attempt_ok (seek_quiet (.end 0) rfl v.stream)), VecStream.seek_end]
    simp only [h6]
    rw [if_neg (by rw [h7, ← h2]; exact Nat.not_lt.2 hc)]
    exact bind_ok (attempt_err hw)
  have hsound : Sound cd { s1 with stream := s1.stream.set i (some ⟨⟨v.stream.vec, v.stream.vec.length⟩, 2 ^ i⟩) } ls := by
    refine ⟨?_, hs.2⟩
    rw [← set_self h1]
    refine h8.1.set i _ _ ?_
    rw [Nat.zero_add]
    refine ⟨rfl, ⟨lst.length, ?_⟩, fun x hx => h5 x (by simp [hx])⟩
    have := Faults.Repr.at h4 ⟨v.stream.vec, v.stream.vec.length⟩ lst.length rfl h4.vec_length (le_refl _)
    rwa [h3] at this
  refine ⟨_, _, bind_panic (h10 _ _ _ happ), ?_⟩
  rw [ByteStream.stored_eq hsound.1, ByteStream.stored_eq hs.1]

/-- **C117: `size` counts the streams it cannot seek as empty.**  Whatever is inside, when the seeks of `size` fail, an
element that would fit in the empty container is accepted. -/
theorem C117_blind [DecidableEq K] [LinearOrder R] (cd : Codec (K × V)) (hsmall : Small cd) (rank : V → R)
    (s : ByteStream) (h : ∃ d, After cd rank s d) (e : K × V) (he : cd.enc e ≠ none)
    (hfit : csz cd e ≤ s.capacity) :
    ∃ d' s', call cd rank (.push [e]) { seeks := List.replicate (s.stream.countP Option.isSome) .err } s =
        (.ok (.many []), d', s') ∧ (stored cd s').Perm (e :: stored cd s) ∧ s'.size = csz cd e + s.size := by
  obtain ⟨d, h⟩ := h
  obtain ⟨-, ls, hs⟩ := h.sound hsmall
  obtain ⟨i, lst, s1, v, m, ch, h1, h2, h3, h4, h5, h6, h7, h8, h9, h10⟩ := push_one hsmall hs e he
    { seeks := List.replicate (s.stream.countP Option.isSome) .err } {} 0
    (sizeGo_blind s.stream { seeks := List.replicate (s.stream.countP Option.isSome) .err } [] s (by simp)) (by omega)
  obtain ⟨b, henc, c1⟩ := h5 e (by simp)
  have hb : b.length ≤ 2 ^ i := by
    obtain ⟨i', c1', c2', -⟩ := chunkSize_spec b.length (hsmall e b henc)
    rw [c1] at c1'
    simp only [Res.ok.injEq, Prod.mk.injEq] at c1'
    rw [c1'.1]; exact c2'
  obtain ⟨d2, vs, p1, ⟨p2, p3⟩ | ⟨p2, p3, -⟩⟩ := append_run h4 e ⟨b, henc, by rw [h3]; exact hb⟩ {}
    ⟨by simp, by simp, by simp⟩
  · simp at p3
  · rw [h3] at p2 p3
    have hset : ByteStream.Streams cd 0 (s1.stream.set i (some ⟨vs, 2 ^ i⟩)) (ls.set i (lst ++ [e])) := by
      refine h8.1.set i _ _ ?_
      rw [Nat.zero_add]
      exact ⟨rfl, ⟨_, p3⟩, h5⟩
    have hperm : (e :: ls.flatten).Perm ((ls.set i (lst ++ [e])).flatten) := by
      have := ByteStream.flatten_set_perm (d := [e]) (d' := []) (l' := lst ++ [e]) h1
        (by simpa using (List.perm_append_singleton e lst).symm)
      simpa using this
    refine ⟨_, _, bind_ok (h10 _ _ _ p2), ?_, ?_⟩
    · rw [ByteStream.stored_eq hs.1]
      have : stored cd { s1 with stream := s1.stream.set i (some ⟨vs, 2 ^ i⟩) } = _ := ByteStream.stored_eq hset
      rw [this]
      exact hperm.symm
    · have e1 : ByteStream.size { s1 with stream := s1.stream.set i (some ⟨vs, 2 ^ i⟩) } = _ := hset.size
      have e2 : s.size = _ := hs.1.size
      rw [e1, e2, ← total_perm (csz cd) hperm, total_cons]

/-- **C117: short writes.**  An element of less than 8192 bytes for which there is room: writes may write fewer bytes than
asked, as long as each writes one, and the element is stored. -/
theorem C117_short_writes [DecidableEq K] [LinearOrder R] (cd : Codec (K × V)) (hsmall : Small cd) (rank : V → R)
    (s : ByteStream) (h : ∃ d, After cd rank s d) (e : K × V) (he : cd.enc e ≠ none) (hc : csz cd e < 8192)
    (hfit : csz cd e + s.size ≤ s.capacity) (d : Disk) (hs : d.seeks = []) (hd : Fate.err ∉ d.writes)
    (hd0 : Fate.cut 0 ∉ d.writes) :
    ∃ d' s', call cd rank (.push [e]) d s = (.ok (.many []), d', s') ∧ (stored cd s').Perm (e :: stored cd s) := by
  obtain ⟨d0, h⟩ := h
  obtain ⟨-, ls, hso⟩ := h.sound hsmall
  obtain ⟨i, lst, s1, v, m, ch, h1, h2, h3, h4, h5, h6, h7, h8, h9, h10⟩ := push_one hsmall hso e he d d s.size
    (sizeGo_quiet s.stream hs s) hfit
  obtain ⟨b, henc, c1⟩ := h5 e (by simp)
  have hb : b.length ≤ 2 ^ i := by
    obtain ⟨i', c1', c2', -⟩ := chunkSize_spec b.length (hsmall e b henc)
    rw [c1] at c1'
    simp only [Res.ok.injEq, Prod.mk.injEq] at c1'
    rw [c1'.1]; exact c2'
  obtain ⟨d2, vs, p1, p2, p3⟩ := append_short h4 e ⟨b, henc, by rw [h3]; exact hb⟩ (by rw [h3, ← h2]; exact hc) d hs ⟨hd, hd0⟩
  rw [h3] at p2 p3
  have hset : ByteStream.Streams cd 0 (s1.stream.set i (some ⟨vs, 2 ^ i⟩)) (ls.set i (lst ++ [e])) := by
    refine h8.1.set i _ _ ?_
    rw [Nat.zero_add]
    exact ⟨rfl, ⟨_, p3⟩, h5⟩
  have hperm : (e :: ls.flatten).Perm ((ls.set i (lst ++ [e])).flatten) := by
    have := ByteStream.flatten_set_perm (d := [e]) (d' := []) (l' := lst ++ [e]) h1
      (by simpa using (List.perm_append_singleton e lst).symm)
    simpa using this
  refine ⟨_, _, bind_ok (h10 _ _ _ p2), ?_⟩
  rw [ByteStream.stored_eq hso.1]
  have : stored cd { s1 with stream := s1.stream.set i (some ⟨vs, 2 ^ i⟩) } = _ := ByteStream.stored_eq hset
  rw [this]
  exact hperm.symm

/-- **C117: damage is confined.**  Whatever fails, and in whatever state, `push` leaves alone the streams of the size classes
of none of the elements pushed. -/
theorem C117_confined [DecidableEq K] [LinearOrder R] (cd : Codec (K × V)) (rank : V → R) (s : ByteStream) (d : Disk)
    (l : List (K × V)) (j : Nat) (hj : ∀ e ∈ l, ∀ b c, cd.enc e = some b → chunkSize b.length ≠ .ok (j, c)) :
    (call cd rank (.push l) d s).2.2.stream[j]? = s.stream[j]? := by
  have hp : (push cd l d s).2.2.stream[j]? = s.stream[j]? := by
    unfold push size
    obtain ⟨d1, n, -, h2, -⟩ := sizeGo_run (σ := ByteStream) s.stream d s
    have hn : (M.get >>= fun s => sizeGo s.stream : M ByteStream Nat) d s = (.ok n, d1, s) := by rw [get_bind]; exact h2
    rw [bind_ok hn]
    exact pushLoop_elsewhere j l n d1 s hj
  show ((push cd l >>= fun out => pure (.many out) : M ByteStream (Ans K V)) d s).2.2.stream[j]? = _
  rcases hm : push cd l d s with ⟨_ | _ | _, d', s'⟩ <;> rw [hm] at hp
  · rw [bind_ok hm]; exact hp
  · rw [bind_err hm]; exact hp
  · rw [bind_panic hm]; exact hp

/-! ## Histories where the promises break -/

open StreamProps (small)

theorem small_small : Small small := by
  intro e b h
  unfold small at h
  simp only at h
  split at h
  · rename_i hb
    simp only [Option.some.injEq] at h
    subst h
    simp only [List.length_cons, List.length_replicate]
    omega
  · simp at h

/-- Two elements in a container with room for four. -/
def two : List (Req Nat Nat) := [.push [(1, 0), (2, 0)]]

/-- A write that stops half-way (a short write, then an error): the next element is not where it is looked for, and the
container holds an element that was never given. -/
theorem C117_torn :
    (run small id [.push [(1, 0)], .push [(2, 0)], .contains 2, .take 1] { writes := [.cut 1, .err] }
      (ByteStream.new 8)).1 = [.ok (.many []), .ok (.many []), .ok (.bool false), .ok (.opt (some (1, 2)))] := by
  decide +kernel

/-- A resize that fails: `take` panics, the element is lost, and the last one is there twice. -/
theorem C117_twice :
    (run small id (two ++ [.take 1, .contains 1, .take 2, .take 2]) { resizes := [.err] } (ByteStream.new 8)).1 =
      [.ok (.many []), .panic, .ok (.bool false), .ok (.opt (some (2, 0))), .ok (.opt (some (2, 0)))] := by
  decide +kernel

/-- A short read, which is no error: `take` panics and the element is lost. -/
theorem C117_short_take :
    (run small id (two ++ [.take 1, .contains 1]) { reads := [.ok, .cut 0] } (ByteStream.new 8)).1 =
      [.ok (.many []), .panic, .ok (.bool false)] := by
  decide +kernel

/-- A short read: `contains` does not find an element that is inside. -/
theorem C117_short_contains :
    (run small id (two ++ [.contains 2, .contains 2]) { reads := [.cut 3] } (ByteStream.new 8)).1 =
      [.ok (.many []), .ok (.bool false), .ok (.bool true)] := by
  decide +kernel

/-- A short write, which is no error, in `take`: the container holds an element that was never given. -/
theorem C117_short_write_take :
    (run small id [.push [(1, 1), (2, 2)], .take 1, .take 2] { writes := [.ok, .ok, .cut 1] } (ByteStream.new 8)).1 =
      [.ok (.many []), .ok (.opt (some (1, 1))), .ok (.opt (some (2, 1)))] := by
  decide +kernel

/-- **C117 is false in full**: each of the three promises breaks. -/
theorem C117_false : ¬ C117_full ∧
    (∃ (calls : List (Req Nat Nat)) (d : Disk), Out.panic ∈ (run small id calls d (ByteStream.new 8)).1) ∧
    (∃ (calls : List (Req Nat Nat)) (d : Disk), 2 < (run small id calls d (ByteStream.new 2)).2.2.size) ∧
    (∃ (calls : List (Req Nat Nat)) (d : Disk), let r := run small id calls d (ByteStream.new 8)
      Out.panic ∉ r.1 ∧ ¬ (stored small r.2.2 ++ r.1.flatMap handed).Perm (calls.flatMap given)) := by
  have h1 : Out.panic ∈ (run small id (two ++ [.take 1]) { reads := [.err] } (ByteStream.new 8)).1 := by decide +kernel
  refine ⟨fun h => (h small small_small 8 _ _).1 h1, ⟨_, _, h1⟩,
    ⟨[.push [(1, 0)], .push [(2, 0)]], { seeks := [.ok, .err] }, by decide +kernel⟩,
    ⟨two, { writes := [.err] }, by decide +kernel, by decide +kernel⟩⟩

/-! ## The hypotheses are met -/

/-- Short writes, as in `C117_short_writes`: the chunk is written byte by byte, and is read back whole. -/
example : (run small id (two ++ [.push [(3, 1)], .take 3]) { writes := [.ok, .ok, .cut 1, .cut 1, .cut 2] } (ByteStream.new 8)).1 =
    [.ok (.many []), .ok (.many []), .ok (.opt (some (3, 1)))] := by
  decide +kernel

/-- A history in which seeks and reads fail, that comes through. -/
example : (run small id (two ++ [.take 1, .contains 2, .push [(3, 0)], .take 1])
      { seeks := [.ok, .ok, .ok, .ok, .ok, .ok, .err], reads := [.ok, .err] } (ByteStream.new 8)).1 =
    [.ok (.many []), .panic, .ok (.bool true), .ok (.many [(3, 0)]), .ok (.opt (some (1, 0)))] := by
  decide +kernel

example : ({ seeks := [.ok, .ok, .ok, .err], reads := [.ok, .err] } : Disk).Reading :=
  ⟨by simp, by simp, by simp⟩

/-- The state after `two`. -/
example : ∃ s d, After small id s d ∧ stored small s = [(1, 0), (2, 0)] ∧ small.enc (3, 0) ≠ none ∧
    csz small (3, 0) < 8192 ∧ csz small (3, 0) + s.size ≤ s.capacity :=
  ⟨_, _, ⟨8, two, {}, ⟨by simp, by simp, by simp⟩, rfl⟩, by decide +kernel, by decide +kernel, by decide +kernel,
    by decide +kernel⟩

/-- Elements of 8192 bytes. -/
def wide : Codec (Nat × Nat) where
  enc e := if e.1 < 256 ∧ e.2 < 256 then
    some (UInt8.ofNat e.1 :: UInt8.ofNat e.2 :: List.replicate 8190 7) else none
  dec
    | a :: b :: _ => some (a.toNat, b.toNat)
    | _ => none
  law o b pad h := by
    split at h
    · rename_i hb
      simp only [Option.some.injEq] at h
      subst h
      simp only [List.cons_append, UInt8.toNat_ofNat', Option.some.injEq]
      ext <;> simp <;> omega
    · simp at h

example : ∃ s d, After wide id s d ∧ wide.enc (1, 0) ≠ none ∧ 8192 ≤ csz wide (1, 0) ∧
    csz wide (1, 0) + s.size ≤ s.capacity := by
  have he : wide.enc (1, 0) = some (UInt8.ofNat 1 :: UInt8.ofNat 0 :: List.replicate 8190 7) := rfl
  have hsz : csz wide (1, 0) = 8192 := by
    have hc : chunkSize 8192 = .ok (13, 8192) := by decide +kernel
    simp only [csz, he, List.length_cons, List.length_replicate, hc]
  refine ⟨_, _, ⟨10000, [], {}, ⟨by simp, by simp, by simp⟩, rfl⟩, by rw [he]; exact Option.some_ne_none _, by rw [hsz], ?_⟩
  rw [hsz]
  decide +kernel

/-- Pushing an element of two bytes leaves the stream of chunks of 4 bytes alone. -/
example : ∀ e ∈ [((1 : Nat), (0 : Nat))], ∀ b c, small.enc e = some b → chunkSize b.length ≠ .ok (2, c) := by
  intro e he b c hb
  simp only [List.mem_singleton] at he
  subst he
  have : small.enc (1, 0) = some [1, 0] := rfl
  rw [this] at hb
  simp only [Option.some.injEq] at hb
  subst hb
  have : chunkSize [(1 : UInt8), 0].length = .ok (1, 2) := by decide +kernel
  rw [this]
  simp

end Byoc.FaultProps
