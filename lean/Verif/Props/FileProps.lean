import Verif.Model.FileBacked
import Verif.Props.StreamProps
import Verif.Props.CompressedProps
import Verif.Props.BuilderProps

/-!
# C79, C80: containers stored in files

`Stream` and `Compressed` containers built from a configuration, or with the temporary file factory, are
stored in files.  `FileStream` opens its file for writing only.
-/

namespace Byoc
namespace FileProps

open List StreamProps

variable {K V : Type} [LinearOrder K] [LinearOrder V]

/-! ## C79: `Stream` -/

/-- **C79, full statement.** A `Stream` container stored in files answers every sequence of calls as
one stored in memory, and has the same size.  False of the code, see `C79_false`. -/
def C79_full : Prop := ∀ (K V : Type) (_ : LinearOrder K) (_ : LinearOrder V) (cd : Codec (K × V)),
  SmallCodec cd → ∀ (n : Nat) (ops : List (Op K V)), ∃ obs s t,
    (byteStream cd).observes (ByteStream.new n) ops = .ok (obs, s) ∧
    (fileByteStream cd).observes (FileByteStream.new n) ops = .ok (obs, t) ∧
    (fileByteStream cd).size t = (byteStream cd).size s

section
variable {cd : Codec (K × V)}

/-- The same bytes in memory and in a file that cannot be read. -/
def Same : Option IOVec → Option FileVec → Prop
  | none, none => True
  | some v, some u => v.stream.vec = u.stream.vec ∧ v.chunk = u.chunk ∧ u.stream.vec ≠ [] ∧
      0 < u.chunk ∧ u.stream.opts.write = true ∧ u.stream.opts.read = false
  | _, _ => False

def Sim (s : ByteStream) (t : FileByteStream) : Prop :=
  s.capacity = t.capacity ∧ Forall₂ Same s.stream t.stream

omit [LinearOrder K] [LinearOrder V] in
theorem iterGo_panics (cd : Codec (K × V)) (c fuel : Nat) (s : FileStream)
    (h : s.opts.read = false) : FileVec.iterGo cd c (fuel + 1) s [] = .panic := by
  unfold FileVec.iterGo fileBufRead
  by_cases hc : bufCap ≤ c
  · simp [hc, FileStream.read, h]
  · simp [hc, FileStream.read, h]

omit [LinearOrder K] [LinearOrder V] in
theorem iter_panics (cd : Codec (K × V)) (v : FileVec) (h : v.stream.opts.read = false) :
    v.iter cd = .panic := by
  have : v.stream.seek (.start 0) = some (0, { v.stream with pos := 0 }) := by
    simp [FileStream.seek]
  simp only [FileVec.iter, this, Res.unwrap_some, Res.ok_bind]
  exact iterGo_panics cd _ _ _ h

omit [LinearOrder K] [LinearOrder V] in
theorem intoIter_panics (cd : Codec (K × V)) (v : FileVec) (h : v.stream.opts.read = false) :
    v.intoIter cd = .panic := iterGo_panics cd _ _ _ h

/-- Writing at the end of the bytes, in memory and in the file. -/
theorem write_end (s : VecStream) (ch : List UInt8) (hp : s.pos = s.vec.length) (hc : ch ≠ []) :
    ∃ p, s.write ch = .ok (ch.length, ⟨s.vec ++ ch, p⟩) := by
  have hl : 0 < ch.length := List.length_pos_iff.2 hc
  refine ⟨s.pos + ch.length, ?_⟩
  simp only [VecStream.write, Res.sub, hp, Nat.le_refl, if_true, Nat.sub_self, Res.ok_bind, hl,
    Res.pure_eq, Res.ok.injEq, Prod.mk.injEq, VecStream.mk.injEq, true_and, and_true]
  have : ¬ (s.vec.length + ch.length ≤ s.vec.length) := by omega
  simp [VecStream.overwrite, VecStream.resizeVec, this, List.drop_append]

theorem fwrite_end (s : FileStream) (ch : List UInt8) (hp : s.pos = s.vec.length)
    (hw : s.opts.write = true) :
    s.write ch = some (ch.length, { s with vec := s.vec ++ ch, pos := s.pos + ch.length }) := by
  simp [FileStream.write, hw, hp, VecStream.overwrite]

omit [LinearOrder K] [LinearOrder V] in
/-- `append` of one element. -/
theorem append_same (v : IOVec) (u : FileVec) (e : K × V) (h1 : v.stream.vec = u.stream.vec)
    (h2 : v.chunk = u.chunk) (h3 : 0 < u.chunk) (hw : u.stream.opts.write = true)
    (hr : u.stream.opts.read = false) :
    ((v.append cd [e]).bind fun r => .ok r.1) = .ok (u.append cd [e]).1 ∧
      ∀ v', v.append cd [e] = .ok (true, v') → Same (some v') (some (u.append cd [e]).2) := by
  have hs : v.stream.seek (.end 0) = (v.stream.vec.length, { v.stream with pos := v.stream.vec.length }) := by
    simp [VecStream.seek]
    omega
  have ht : u.stream.seek (.end 0) = some (u.stream.vec.length, { u.stream with pos := u.stream.vec.length }) := by
    simp [FileStream.seek]
  simp only [IOVec.append, hs, FileVec.append, ht, List.reverse_singleton, IOVec.appendLoop,
    FileVec.appendLoop, h2]
  cases hc : IOVec.chunkOf cd u.chunk e with
  | none =>
    refine ⟨rfl, fun v' h => ?_⟩
    cases h
  | some ch =>
    have hlen : ch.length = u.chunk := by
      unfold IOVec.chunkOf at hc
      split at hc
      · cases hc
      · split at hc
        · cases hc
        · cases hc; simp; omega
    have hne : ch ≠ [] := by
      rintro rfl
      simp at hlen; omega
    obtain ⟨p, hp⟩ := write_end { v.stream with pos := v.stream.vec.length } ch rfl hne
    have hf := fwrite_end { u.stream with pos := u.stream.vec.length } ch rfl hw
    simp only [hp, hf, Res.ok_bind]
    refine ⟨rfl, fun v' h => ?_⟩
    cases h
    exact ⟨by simp [h1], rfl, by simp [hne], h3, hw, hr⟩

theorem chunkSize_pos {n i c : Nat} (h : chunkSize n = .ok (i, c)) : 0 < c := by
  unfold chunkSize at h
  simp only at h
  split at h
  · rename_i he
    cases h
    rw [← he]; exact Nat.two_pow_pos _
  · split at h
    · cases h; exact Nat.two_pow_pos _
    · cases h

/-- Both fail, or both return the same. -/
def Agree {α : Type} (R : ByteStream → FileByteStream → Prop) :
    Res (α × ByteStream) → Res (α × FileByteStream) → Prop
  | .ok (a, s), .ok (b, t) => a = b ∧ R s t
  | .panic, .panic => True
  | _, _ => False

omit [LinearOrder K] [LinearOrder V] in
theorem Agree.cons {e : K × V} {x : Res (List (K × V) × ByteStream)}
    {y : Res (List (K × V) × FileByteStream)} (h : Agree Sim x y) :
    Agree Sim (x >>= fun r => pure (e :: r.1, r.2)) (y >>= fun r => pure (e :: r.1, r.2)) := by
  cases x with
  | panic => cases y with
    | panic => trivial
    | ok y => exact h.elim
  | ok x => cases y with
    | panic => exact h.elim
    | ok y => exact ⟨by rw [h.1], h.2⟩

omit [LinearOrder K] [LinearOrder V] in
theorem sim_set {s : ByteStream} {t : FileByteStream} (h : Sim s t) (i : Nat) (o : Option IOVec)
    (o' : Option FileVec) (hs : Same o o') :
    Sim { s with stream := s.stream.set i o } { t with stream := t.stream.set i o' } := by
  refine ⟨h.1, ?_⟩
  have := h.2
  generalize s.stream = a at this
  generalize t.stream = b at this
  induction this generalizing i with
  | nil => exact .nil
  | cons h1 h2 ih =>
    cases i with
    | zero => exact .cons hs h2
    | succ i => exact .cons h1 (ih i)

omit [LinearOrder K] [LinearOrder V] in
theorem sim_get {a : List (Option IOVec)} {b : List (Option FileVec)} (h : Forall₂ Same a b) (i : Nat) :
    (a[i]? = none ∧ b[i]? = none) ∨ ∃ o o', a[i]? = some o ∧ b[i]? = some o' ∧ Same o o' := by
  induction h generalizing i with
  | nil => exact Or.inl ⟨rfl, rfl⟩
  | @cons x y _ _ h1 h2 ih =>
    cases i with
    | zero => exact Or.inr ⟨x, y, rfl, rfl, h1⟩
    | succ i => simpa using ih i

omit [LinearOrder K] [LinearOrder V] in
theorem pushLoop_agree (l : List (K × V)) : ∀ (tot : Nat) (s : ByteStream) (t : FileByteStream), Sim s t →
    Agree Sim (ByteStream.pushLoop cd l tot s) (FileByteStream.pushLoop cd l tot t) := by
  induction l with
  | nil => intro tot s t h; exact ⟨rfl, h⟩
  | cons e l ih =>
    intro tot s t h
    unfold ByteStream.pushLoop FileByteStream.pushLoop
    cases henc : cd.enc e with
    | none => exact (ih tot s t h).cons
    | some b =>
      simp only
      cases hc : chunkSize b.length with
      | panic => trivial
      | ok ic =>
        obtain ⟨i, c⟩ := ic
        simp only [Res.ok_bind, h.1]
        by_cases hfull : c + tot > t.capacity
        · rw [if_pos hfull, if_pos hfull]
          exact (ih tot s t h).cons
        · rw [if_neg hfull, if_neg hfull]
          rcases sim_get h.2 i with ⟨h1, h2⟩ | ⟨o, o', h1, h2, h3⟩
          · rw [h1, h2]; trivial
          · rw [h1, h2]
            simp only [Res.unwrap_some, Res.ok_bind]
            have key := append_same (cd := cd) (o.getD ⟨VecStream.new, c⟩) (o'.getD ⟨FileStream.new [], c⟩) e
              (by cases o <;> cases o' <;> simp_all [Same, VecStream.new, FileStream.new])
              (by cases o <;> cases o' <;> simp_all [Same])
              (by
                cases o <;> cases o' <;> simp_all [Same]
                exact chunkSize_pos hc)
              (by cases o <;> cases o' <;> simp_all [Same, FileStream.new])
              (by cases o <;> cases o' <;> simp_all [Same, FileStream.new])
            generalize (o.getD ⟨VecStream.new, c⟩).append cd [e] = x at key
            generalize (o'.getD ⟨FileStream.new [], c⟩).append cd [e] = y at key
            obtain ⟨k1, k2⟩ := key
            cases x with
            | panic => cases k1
            | ok x =>
              obtain ⟨xb, xv⟩ := x
              obtain ⟨yb, yv⟩ := y
              have hb : xb = yb := by injection k1
              subst hb
              cases xb with
              | false => trivial
              | true => exact ih _ _ _ (h.1 ▸ sim_set h i _ _ (k2 xv rfl))

theorem fsize (u : FileVec) : u.size = u.stream.vec.length := by
  have : ¬ ((u.stream.vec.length : Int) < 0) := by omega
  simp [FileVec.size, FileStream.seek, this]

theorem msize (v : IOVec) : v.size = v.stream.vec.length := by
  have : ¬ ((v.stream.vec.length : Int) < 0) := by omega
  simp [IOVec.size, VecStream.seek, this]

omit [LinearOrder K] [LinearOrder V] in
theorem size_eq {s : ByteStream} {t : FileByteStream} (h : Sim s t) : s.size = t.size := by
  unfold ByteStream.size FileByteStream.size
  have := h.2
  generalize s.stream = a at this
  generalize t.stream = b at this
  induction this with
  | nil => rfl
  | @cons x y _ _ h1 h2 ih =>
    simp only [List.map_cons, List.sum_cons, ih]
    congr 1
    cases x <;> cases y <;> simp_all [Same]
    · rfl
    · rw [fsize, ByteStream.sizeOpt, msize, h1.1]

theorem push_agree {s : ByteStream} {t : FileByteStream} (h : Sim s t) (l : List (K × V)) :
    Agree Sim ((byteStream cd).push s l) ((fileByteStream cd).push t l) := by
  show Agree Sim (ByteStream.push cd s l) (FileByteStream.push cd t l)
  unfold ByteStream.push FileByteStream.push
  rw [size_eq h]
  exact pushLoop_agree l _ s t h

/-- No stream was created. -/
def Bare (t : FileByteStream) : Prop := ∀ o ∈ t.stream, o = none

omit [LinearOrder K] [LinearOrder V] in
theorem bare_iff {s : ByteStream} {t : FileByteStream} (h : Sim s t) : t.size = 0 ↔ Bare t := by
  unfold Bare FileByteStream.size
  have := h.2
  generalize s.stream = a at this
  generalize t.stream = b at this
  induction this with
  | nil => simp
  | @cons x y _ _ h1 h2 ih =>
    simp only [List.map_cons, List.sum_cons, Nat.add_eq_zero_iff, ih, List.forall_mem_cons]
    refine and_congr_left fun _ => ?_
    cases y with
    | none => simp
    | some u =>
      cases x with
      | none => exact h1.elim
      | some v => simp [fsize, h1.2.2.1]

/-! ### No stream -/

theorem mbare {s : ByteStream} {t : FileByteStream} (h : Sim s t) (hb : Bare t) : ∀ o ∈ s.stream, o = none := by
  unfold Bare at hb
  have := h.2
  generalize s.stream = a at this
  generalize t.stream = b at this hb
  induction this with
  | nil => simp
  | @cons x y _ _ h1 h2 ih =>
    obtain ⟨hy, hb⟩ := List.forall_mem_cons.1 hb
    refine List.forall_mem_cons.2 ⟨?_, ih hb⟩
    subst hy
    cases x with
    | none => rfl
    | some v => exact h1.elim

theorem all_none {α : Type} {l : List (Option α)} (h : ∀ o ∈ l, o = none) : l = List.replicate l.length none :=
  List.eq_replicate_iff.2 ⟨rfl, h⟩

omit [LinearOrder V] in
theorem bare_mem (m : Nat) (cd : Codec (K × V)) :
    (∀ k, ByteStream.containsGo cd k (List.replicate m none) = .ok false) ∧
    (∀ k i, ByteStream.findGo cd k i (List.replicate m none) = .ok none) ∧
    (∀ ks, ByteStream.takeMultipleGo cd (List.replicate m none) ks = .ok ([], ks)) ∧
    (∀ i, ByteStream.allSlots cd (id : V → V) i (List.replicate m none) = .ok []) ∧
    ByteStream.flushGo cd (List.replicate m none) = .ok [] := by
  induction m with
  | zero => exact ⟨fun _ => rfl, fun _ _ => rfl, fun _ => rfl, fun _ => rfl, rfl⟩
  | succ m ih =>
    obtain ⟨h1, h2, h3, h4, h5⟩ := ih
    refine ⟨fun k => ?_, fun k i => ?_, fun ks => ?_, fun i => ?_, ?_⟩
    · simpa [List.replicate_succ, ByteStream.containsGo, ByteStream.items] using h1 k
    · simpa [List.replicate_succ, ByteStream.findGo, ByteStream.items, findKey] using h2 k (i + 1)
    · simp [List.replicate_succ, ByteStream.takeMultipleGo, ByteStream.items,
        ByteStream.takeMultipleStream, h3 ks]
    · exact h4 (i + 1)
    · exact h5

omit [LinearOrder V] in
theorem bare_file (m : Nat) (cd : Codec (K × V)) :
    (∀ k, FileByteStream.containsGo cd k (List.replicate m none) = .ok false) ∧
    (∀ k i, FileByteStream.findGo cd k i (List.replicate m none) = .ok none) ∧
    (∀ ks, FileByteStream.takeMultipleGo cd (List.replicate m none) ks = .ok ([], ks)) ∧
    (∀ i, FileByteStream.allSlots cd i (List.replicate m none) = .ok []) := by
  induction m with
  | zero => exact ⟨fun _ => rfl, fun _ _ => rfl, fun _ => rfl, fun _ => rfl⟩
  | succ m ih =>
    obtain ⟨h1, h2, h3, h4⟩ := ih
    refine ⟨fun k => ?_, fun k i => ?_, fun ks => ?_, fun i => ?_⟩
    · simpa [List.replicate_succ, FileByteStream.containsGo, FileByteStream.items] using h1 k
    · simpa [List.replicate_succ, FileByteStream.findGo, FileByteStream.items, findKey] using h2 k (i + 1)
    · simp [List.replicate_succ, FileByteStream.takeMultipleGo, FileByteStream.items,
        ByteStream.takeMultipleStream, h3 ks]
    · exact h4 (i + 1)

theorem descending_nil : ByteStream.descending [] = [] := rfl

theorem bare_agree {s : ByteStream} {t : FileByteStream} (h : Sim s t) (hb : Bare t) (op : Op K V)
    (hop : ∀ l, op ≠ .push l) :
    ∃ r, (byteStream cd).observe s op = .ok (r, s) ∧ (fileByteStream cd).observe t op = .ok (r, t) ∧
      r.elements = [] := by
  have hm := all_none (mbare h hb)
  have hf := all_none hb
  obtain ⟨m1, m2, m3, m4, m5⟩ := bare_mem s.stream.length cd
  obtain ⟨f1, f2, f3, f4⟩ := bare_file t.stream.length cd
  cases op with
  | push l => exact absurd rfl (hop l)
  | contains k =>
    refine ⟨.bool false, ?_, ?_, rfl⟩
    · simp only [Block.observe, byteStream]; rw [hm, m1 k]; rfl
    · simp only [Block.observe, fileByteStream]; rw [hf, f1 k]; rfl
  | take k =>
    refine ⟨.opt none, ?_, ?_, rfl⟩
    · simp only [Block.observe, byteStream, ByteStream.take]; rw [hm, m2 k 0]; rfl
    · simp only [Block.observe, fileByteStream, FileByteStream.take]; rw [hf, f2 k 0]; rfl
  | takeMultiple ks =>
    refine ⟨.keyed [] (sortKeys ks), ?_, ?_, rfl⟩
    · simp only [Block.observe, byteStream, ByteStream.takeMultiple]; rw [hm, m3 _]; rfl
    · simp only [Block.observe, fileByteStream, FileByteStream.takeMultiple]; rw [hf, f3 _]; rfl
  | pop n =>
    refine ⟨.many [], ?_, ?_, rfl⟩
    · simp only [Block.observe, byteStream, ByteStream.pop, ByteStream.popBy]; rw [hm, m4 0]; simp only [← hm]; rfl
    · simp only [Block.observe, fileByteStream, FileByteStream.pop]; rw [hf, f4 0]; simp only [← hf]; rfl
  | flush =>
    refine ⟨.many [], ?_, ?_, rfl⟩
    · have : s.stream.map (fun _ => (none : Option IOVec)) = s.stream := by
        rw [hm]; simp
      simp only [Block.observe, byteStream, ByteStream.flush, this]; rw [hm, m5]; simp only [← hm]; rfl
    · have h1 : t.stream.map (fun _ => (none : Option FileVec)) = t.stream := by
        rw [hf]; simp
      have h2 : t.stream.filterMap id = [] := by
        rw [hf]; simp
      simp only [Block.observe, fileByteStream, FileByteStream.flush, FileByteStream.detach, h1, h2]
      rfl

/-! ### Some stream -/

/-- A stream that cannot be read. -/
def Blind (t : List (Option FileVec)) : Prop := ∃ u, some u ∈ t ∧ u.stream.opts.read = false

omit [LinearOrder V] in
theorem blind_file (cd : Codec (K × V)) (l : List (Option FileVec)) (h : Blind l)
    (hr : ∀ u, some u ∈ l → u.stream.opts.read = false) :
    (∀ k, FileByteStream.containsGo cd k l = .panic) ∧
    (∀ k i, FileByteStream.findGo cd k i l = .panic) ∧
    (∀ ks, FileByteStream.takeMultipleGo cd l ks = .panic) ∧
    (∀ i, FileByteStream.allSlots cd i l = .panic) ∧
    FileByteStream.drain cd (l.filterMap id) = .panic := by
  induction l with
  | nil => obtain ⟨u, h, -⟩ := h; simp at h
  | cons o l ih =>
    cases o with
    | some u =>
      have hi := iter_panics cd u (hr u (by simp))
      have hi' := intoIter_panics cd u (hr u (by simp))
      refine ⟨fun k => ?_, fun k i => ?_, fun ks => ?_, fun i => ?_, ?_⟩
      · simp [FileByteStream.containsGo, FileByteStream.items, hi]
      · simp [FileByteStream.findGo, FileByteStream.items, hi]
      · simp [FileByteStream.takeMultipleGo, FileByteStream.items, hi]
      · simp [FileByteStream.allSlots, hi]
      · simp [FileByteStream.drain, hi']
    | none =>
      obtain ⟨u, hu, hu'⟩ := h
      have hb : Blind l := ⟨u, by simpa using hu, hu'⟩
      obtain ⟨h1, h2, h3, h4, h5⟩ := ih hb (fun u hu => hr u (by simp [hu]))
      refine ⟨fun k => ?_, fun k i => ?_, fun ks => ?_, fun i => ?_, ?_⟩
      · simpa [FileByteStream.containsGo, FileByteStream.items] using h1 k
      · simpa [FileByteStream.findGo, FileByteStream.items, findKey] using h2 k (i + 1)
      · simp [FileByteStream.takeMultipleGo, FileByteStream.items,
          ByteStream.takeMultipleStream, h3 ks]
      · exact h4 (i + 1)
      · simpa using h5

theorem sim_blind {s : ByteStream} {t : FileByteStream} (h : Sim s t) (hb : ¬ Bare t) :
    Blind t.stream ∧ ∀ u, some u ∈ t.stream → u.stream.opts.read = false := by
  have key : ∀ u, some u ∈ t.stream → u.stream.opts.read = false := by
    intro u hu
    obtain ⟨i, hi⟩ := List.mem_iff_getElem?.1 hu
    rcases sim_get h.2 i with ⟨-, h2⟩ | ⟨o, o', h1, h2, h3⟩
    · rw [hi] at h2; cases h2
    · rw [hi] at h2; cases h2
      cases o with
      | none => exact h3.elim
      | some v => exact h3.2.2.2.2.2
  refine ⟨?_, key⟩
  unfold Bare at hb
  push Not at hb
  obtain ⟨o, ho, hn⟩ := hb
  cases o with
  | none => exact absurd rfl hn
  | some u => exact ⟨u, ho, key u ho⟩

/-- Every call but `push` panics. -/
structure AllPanic (cd : Codec (K × V)) (t : FileByteStream) : Prop where
  calls : ∀ op : Op K V, (∀ l, op ≠ .push l) → (fileByteStream cd).observe t op = .panic
  get : ∀ k f, (fileByteStreamGet cd).get t k f = .panic
  getMut : ∀ k f, (fileByteStreamGet cd).getMut t k f = .panic

theorem not_bare {s : ByteStream} {t : FileByteStream} (h : Sim s t) (hb : ¬ Bare t) : AllPanic cd t := by
  obtain ⟨h1, h2⟩ := sim_blind h hb
  obtain ⟨p1, p2, p3, p4, p5⟩ := blind_file cd t.stream h1 h2
  refine ⟨fun op hop => ?_, fun k f => ?_, fun k f => ?_⟩
  · cases op with
    | push l => exact absurd rfl (hop l)
    | contains k => simp [Block.observe, fileByteStream, p1]
    | take k => simp [Block.observe, fileByteStream, FileByteStream.take, p2]
    | takeMultiple ks => simp [Block.observe, fileByteStream, FileByteStream.takeMultiple, p3]
    | pop n => simp [Block.observe, fileByteStream, FileByteStream.pop, p4]
    | flush => simp only [Block.observe, fileByteStream, FileByteStream.flush, FileByteStream.detach, p5]; rfl
  · simp only [fileByteStreamGet, FileByteStream.get, p2]; rfl
  · simp only [fileByteStreamGet, FileByteStream.getMut, p2]; rfl

theorem new_sim (n : Nat) : Sim (ByteStream.new n) (FileByteStream.new n) :=
  ⟨rfl, by
    show Forall₂ Same (List.replicate 64 none) (List.replicate 64 none)
    generalize 64 = m
    induction m with
    | zero => exact .nil
    | succ m ih => exact .cons trivial ih⟩

omit [LinearOrder K] [LinearOrder V] in
theorem pushLoop_capacity (l : List (K × V)) : ∀ (tot : Nat) (t : FileByteStream) (out : List (K × V))
    (t' : FileByteStream), FileByteStream.pushLoop cd l tot t = .ok (out, t') → t'.capacity = t.capacity := by
  induction l with
  | nil => intro tot t out t' h; cases h; rfl
  | cons e l ih =>
    intro tot t out t' h
    have skip : ∀ tot, (FileByteStream.pushLoop cd l tot t >>= fun r => pure (e :: r.1, r.2)) = .ok (out, t') →
        t'.capacity = t.capacity := by
      intro tot h
      cases hp : FileByteStream.pushLoop cd l tot t with
      | panic => rw [hp] at h; cases h
      | ok x => rw [hp] at h; cases h; exact ih tot t x.1 x.2 hp
    unfold FileByteStream.pushLoop at h
    cases henc : cd.enc e with
    | none => rw [henc] at h; exact skip tot h
    | some b =>
      rw [henc] at h
      simp only at h
      cases hc : chunkSize b.length with
      | panic => rw [hc] at h; cases h
      | ok ic =>
        rw [hc] at h
        simp only [Res.ok_bind] at h
        split at h
        · exact skip tot h
        · cases ho : t.stream[ic.1]? with
          | none => rw [ho] at h; cases h
          | some o =>
            rw [ho] at h
            simp only [Res.unwrap_some, Res.ok_bind] at h
            split at h
            · exact (ih _ _ _ _ h).trans rfl
            · cases h

theorem observe_sim {s : ByteStream} {t : FileByteStream} (h : Sim s t) (op : Op K V) {r : Obs K V}
    {t' : FileByteStream} (ho : (fileByteStream cd).observe t op = .ok (r, t')) :
    ∃ s', (byteStream cd).observe s op = .ok (r, s') ∧ Sim s' t' ∧ t'.capacity = t.capacity := by
  by_cases hp : ∃ l, op = .push l
  · obtain ⟨l, rfl⟩ := hp
    have key := push_agree (cd := cd) h l
    simp only [Block.observe] at ho ⊢
    generalize (byteStream cd).push s l = x at key ⊢
    have hcap := pushLoop_capacity (cd := cd) l t.size t
    replace hcap : ∀ out t', (fileByteStream cd).push t l = .ok (out, t') → t'.capacity = t.capacity := hcap
    generalize (fileByteStream cd).push t l = y at key ho hcap
    cases y with
    | panic => cases ho
    | ok y =>
      cases ho
      cases x with
      | panic => exact key.elim
      | ok x =>
        refine ⟨x.2, ?_, key.2, hcap y.1 y.2 rfl⟩
        simp only [Res.ok_bind, Res.pure_eq]
        rw [key.1]
  · push Not at hp
    by_cases hb : Bare t
    · obtain ⟨r', h1, h2, -⟩ := bare_agree (cd := cd) h hb op hp
      rw [ho] at h2; cases h2
      exact ⟨s, h1, h, rfl⟩
    · rw [(not_bare (cd := cd) h hb).calls op hp] at ho; cases ho

theorem observes_sim (ops : List (Op K V)) : ∀ {s : ByteStream} {t : FileByteStream} (_ : Sim s t)
    {obs : List (Obs K V)} {t' : FileByteStream}
    (_ : (fileByteStream cd).observes t ops = .ok (obs, t')),
    ∃ s', (byteStream cd).observes s ops = .ok (obs, s') ∧ Sim s' t' ∧ t'.capacity = t.capacity := by
  induction ops with
  | nil =>
    intro s t h obs t' ho
    cases ho
    exact ⟨s, rfl, h, rfl⟩
  | cons op ops ih =>
    intro s t h obs t' ho
    simp only [Block.observes] at ho
    cases h1 : (fileByteStream cd).observe t op with
    | panic => rw [h1] at ho; cases ho
    | ok x =>
      obtain ⟨r, t1⟩ := x
      rw [h1] at ho
      simp only [Res.ok_bind] at ho
      cases h2 : (fileByteStream cd).observes t1 ops with
      | panic => rw [h2] at ho; cases ho
      | ok y =>
        obtain ⟨rs, t2⟩ := y
        rw [h2] at ho
        cases ho
        obtain ⟨s1, g1, g2, g3⟩ := observe_sim (cd := cd) h op h1
        obtain ⟨s2, k1, k2, k3⟩ := ih g2 h2
        exact ⟨s2, by simp only [Block.observes, g1, k1, Res.ok_bind, Res.pure_eq], k2, k3.trans g3⟩

end

/-- **C79, proved part (agreement).** As long as no call panics, a `Stream` container stored in files
answers as one in memory, and has the same size. -/
theorem C79_partial (cd : Codec (K × V)) (n : Nat) (ops : List (Op K V)) (obs : List (Obs K V))
    (t : FileByteStream)
    (h : (fileByteStream cd).observes (FileByteStream.new n) ops = .ok (obs, t)) :
    ∃ s, (byteStream cd).observes (ByteStream.new n) ops = .ok (obs, s) ∧
      (fileByteStream cd).size t = (byteStream cd).size s ∧ (fileByteStream cd).capacity t = n := by
  obtain ⟨s, h1, h2, h3⟩ := observes_sim (cd := cd) ops (new_sim n) h
  exact ⟨s, h1, (size_eq h2).symm, h3⟩

/-- **C79, proved part (which calls panic).** After a sequence of calls that did not panic: if nothing
is stored, every call but `push` answers that there is nothing; as soon as something is stored every
call but `push` panics. -/
theorem C79_calls_partial (cd : Codec (K × V)) (n : Nat) (ops : List (Op K V)) (obs : List (Obs K V))
    (t : FileByteStream)
    (h : (fileByteStream cd).observes (FileByteStream.new n) ops = .ok (obs, t)) :
    ((fileByteStream cd).size t = 0 → ∀ op : Op K V, (∀ l, op ≠ .push l) →
      ∃ r, (fileByteStream cd).observe t op = .ok (r, t) ∧ r.elements = []) ∧
    ((fileByteStream cd).size t ≠ 0 →
      (∀ op : Op K V, (∀ l, op ≠ .push l) → (fileByteStream cd).observe t op = .panic) ∧
      (∀ k f, (fileByteStreamGet cd).get t k f = .panic) ∧
      (∀ k f, (fileByteStreamGet cd).getMut t k f = .panic)) := by
  obtain ⟨s, h1, h2, -⟩ := observes_sim (cd := cd) ops (new_sim n) h
  refine ⟨fun hz op hop => ?_, fun hz => ?_⟩
  · obtain ⟨r, -, g, g'⟩ := bare_agree (cd := cd) h2 ((bare_iff h2).1 hz) op hop
    exact ⟨r, g, g'⟩
  · have := not_bare (cd := cd) h2 (fun hb => hz ((bare_iff h2).2 hb))
    exact ⟨this.calls, this.get, this.getMut⟩

/-- **C79, `push` never panics** and accepts what fits, whatever was pushed before: on a container that
holds something, it returns what the same container in memory returns. -/
theorem C79_push_partial (cd : Codec (K × V)) (hsmall : SmallCodec cd) (n : Nat) (batches : List (List (K × V))) :
    ∃ obs s t, (byteStream cd).observes (ByteStream.new n) (batches.map .push) = .ok (obs, s) ∧
      (fileByteStream cd).observes (FileByteStream.new n) (batches.map .push) = .ok (obs, t) ∧
      (fileByteStream cd).size t = (byteStream cd).size s ∧ (fileByteStream cd).size t ≤ n := by
  have key : ∀ (batches : List (List (K × V))) (s : ByteStream) (t : FileByteStream), Sim s t →
      ByteStream.Inv cd s → ∃ obs s' t', (byteStream cd).observes s (batches.map .push) = .ok (obs, s') ∧
      (fileByteStream cd).observes t (batches.map .push) = .ok (obs, t') ∧ Sim s' t' ∧
      ByteStream.Inv cd s' ∧ s'.capacity = s.capacity := by
    intro batches
    induction batches with
    | nil => intro s t h hi; exact ⟨[], s, t, rfl, rfl, h, hi, rfl⟩
    | cons l batches ih =>
      intro s t h hi
      obtain ⟨out, s1, p1, p2, p3, -⟩ := ByteStream.push_spec hsmall s hi l
      have ha := push_agree (cd := cd) h l
      replace p1 : (byteStream cd).push s l = .ok (out, s1) := p1
      rw [p1] at ha
      cases hy : (fileByteStream cd).push t l with
      | panic => rw [hy] at ha; exact ha.elim
      | ok y =>
        rw [hy] at ha
        obtain ⟨ho, hs⟩ := ha
        obtain ⟨obs, s2, t2, g1, g2, g3, g4, g5⟩ := ih s1 y.2 hs p2
        refine ⟨.many out :: obs, s2, t2, ?_, ?_, g3, g4, g5.trans p3⟩
        · simp only [List.map_cons, Block.observes, Block.observe, p1, Res.ok_bind, Res.pure_eq, g1]
        · simp only [List.map_cons, Block.observes, Block.observe, hy, Res.ok_bind, Res.pure_eq, g2, ho]
  obtain ⟨obs, s, t, h1, h2, h3, h4, h5⟩ := key batches _ _ (new_sim n) (ByteStream.new_inv n)
  refine ⟨obs, s, t, h1, h2, (size_eq h3).symm, ?_⟩
  have := h4.bounded
  rw [h5] at this
  exact (size_eq h3).symm.trans_le this

/-- **C79, `flush` loses everything**: the elements leave the container when `flush()` is called, and
reading the iterator it returns panics. -/
theorem C79_flush_loses (cd : Codec (K × V)) (n : Nat) (ops : List (Op K V)) (obs : List (Obs K V))
    (t : FileByteStream)
    (h : (fileByteStream cd).observes (FileByteStream.new n) ops = .ok (obs, t))
    (hz : (fileByteStream cd).size t ≠ 0) :
    (fileByteStream cd).size t.detach.2 = 0 ∧ FileByteStream.drain cd t.detach.1 = .panic := by
  obtain ⟨s, h1, h2, -⟩ := observes_sim (cd := cd) ops (new_sim n) h
  obtain ⟨b1, b2⟩ := sim_blind h2 (fun hb => hz ((bare_iff h2).2 hb))
  refine ⟨?_, (blind_file cd t.stream b1 b2).2.2.2.2⟩
  simp [fileByteStream, FileByteStream.size, FileByteStream.detach]

/-- Pushing one element of 2 bytes in a container of 16 bytes, then looking for it. -/
theorem C79_example :
    (∃ t, (fileByteStream small).observes (FileByteStream.new 16) [.push [(1, 0)]] = .ok ([.many []], t) ∧
      (fileByteStream small).size t = 2) ∧
    (fileByteStream small).observes (FileByteStream.new 16) [.push [(1, 0)], .contains 1] = .panic ∧
    (((byteStream small).push (ByteStream.new 16) [(1, 0)]).bind fun r =>
      ((byteStream small).contains r.2 1).bind fun q => .ok (r.1, q.1)) = .ok ([], true) :=
  by
  obtain ⟨t, h1, h2⟩ : ∃ t, (fileByteStream small).observes (FileByteStream.new 16) [.push [(1, 0)]] =
      .ok ([.many []], t) ∧ (fileByteStream small).size t = 2 := by
    have h : (match FileByteStream.push small (FileByteStream.new 16) [(1, 0)] with
      | .ok r => decide (r.1 = [] ∧ r.2.size = 2)
      | .panic => false) = true := by decide +kernel
    cases hp : FileByteStream.push small (FileByteStream.new 16) [(1, 0)] with
    | panic => rw [hp] at h; cases h
    | ok r =>
      obtain ⟨o, t⟩ := r
      rw [hp] at h
      obtain ⟨h1, h2⟩ := of_decide_eq_true h
      replace h1 : o = [] := h1
      subst h1
      replace hp : (fileByteStream small).push (FileByteStream.new 16) [(1, 0)] = .ok ([], t) := hp
      exact ⟨t, by simp only [Block.observes, Block.observe, hp, Res.ok_bind, Res.pure_eq], h2⟩
  refine ⟨⟨t, h1, h2⟩, ?_, by decide +kernel⟩
  have h3 := ((C79_calls_partial small 16 _ _ t h1).2 (by rw [h2]; decide)).1 (.contains 1) (by simp)
  cases h4 : (fileByteStream small).observe (FileByteStream.new 16) (.push [(1, 0)]) with
  | panic => simp [Block.observes, h4] at h1
  | ok x =>
    simp only [Block.observes, h4, Res.ok_bind, Res.pure_eq, Res.ok.injEq, Prod.mk.injEq] at h1
    simp only [Block.observes, h4, Res.ok_bind, h1.2, h3, Res.panic_bind]

/-- **C79 is false of the code.** -/
theorem C79_false : ¬ C79_full := by
  intro h
  obtain ⟨obs, s, t, -, h2, -⟩ := h Nat Nat inferInstance inferInstance small small_small 16
    [.push [(1, 0)], .contains 1]
  rw [C79_example.2.1] at h2
  cases h2

omit [LinearOrder V] in
/-- **C79, configurations.** The configuration of any `Stream` builder, on files or in memory, builds
such a container: once it stores something, every call but `push` panics. -/
theorem C79_config (w : World) (P : Params K V) (n : Nat) :
    ∃ b, Config.build w P (Bld.stream n).toml = .ok b ∧
      ∀ l out s, b.block.push b.state l = .ok (out, s) → b.block.size s ≠ 0 →
        (∀ k, b.block.contains s k = .panic ∧ b.block.take s k = .panic) ∧
        (∀ m, b.block.pop s m = .panic) ∧ b.block.flush s = .panic := by
  let _ := P.ord
  refine ⟨.new (fileByteStream P.codec) (FileByteStream.new n) false, ?_, ?_⟩
  · exact Config.build_iff.2 ⟨_, "StreamConfig", .stream n, [], [], rfl, rfl,
      Config.parse_iff.2 (.stream rfl), .nil, .nil, rfl⟩
  · intro l out s hs hz
    replace hs : (fileByteStream P.codec).push (FileByteStream.new n) l = .ok (out, s) := hs
    have ho : (fileByteStream P.codec).observes (FileByteStream.new n) [.push l] = .ok ([.many out], s) := by
      simp only [Block.observes, Block.observe, hs, Res.ok_bind, Res.pure_eq]
    have hc := ((C79_calls_partial P.codec n _ _ s ho).2 hz).1
    have fwd : ∀ {α : Type} {x : Res α} {β : Type} {f : α → β}, (x >>= fun a => pure (f a)) = Res.panic →
        x = .panic := by
      intro α x β f h
      cases x with
      | ok a => cases h
      | panic => rfl
    refine ⟨fun k => ⟨fwd (hc (.contains k) (by simp)), fwd (hc (.take k) (by simp))⟩,
      fun m => fwd (hc (.pop m) (by simp)), fwd (hc .flush (by simp))⟩

/-! ## C80: `Compressed` -/

/-- **C80, full statement.** A `Compressed` container stored in a new file answers every sequence of
calls as one stored in memory, and has the same size.  False of the code, see `C80_false`. -/
def C80_full : Prop := ∀ (K V : Type) (_ : LinearOrder K) (z : Lz4) (cd : VecCodec (K × V)), cd.Law →
  ∀ (srt srtU : Sorter (K × V)) (n : Nat) (ops : List (Op K V)) (obs : List (Obs K V)) (s : Compressed),
    (compressed z cd srt srtU).observes (Compressed.new n) ops = .ok (obs, s) →
    ∃ t, (fileCompressed z cd srt srtU).observes (FileCompressed.new [] n) ops = .ok (obs, t) ∧
      (fileCompressed z cd srt srtU).size t = (compressed z cd srt srtU).size s

/-- The answer of a container that refuses everything and stores nothing. -/
def refuses : Op K V → Obs K V
  | .contains _ => .bool false
  | .take _ => .opt none
  | .takeMultiple ks => .keyed [] ks
  | .pop _ => .many []
  | .push l => .many l
  | .flush => .many []

omit [LinearOrder V] in
/-- **C80, proved part.** Whatever the file holds, every sequence of calls on a `Compressed` container
stored in a file is answered without a panic, by a container that hands back every element it is
given, and finds nothing: the file is never written, the size is 0.  (So nothing is lost.) -/
theorem C80_partial (z : Lz4) (cd : VecCodec (K × V)) (srt srtU : Sorter (K × V)) (bytes : List UInt8)
    (n : Nat) (ops : List (Op K V)) :
    (fileCompressed z cd srt srtU).observes (FileCompressed.new bytes n) ops =
      .ok (ops.map refuses, FileCompressed.new bytes n) ∧
    (fileCompressed z cd srt srtU).size (FileCompressed.new bytes n) = 0 ∧
    (fileCompressed z cd srt srtU).capacity (FileCompressed.new bytes n) = n ∧
    (∀ k f, (fileCompressedGet z cd srt srtU).get (FileCompressed.new bytes n) k f =
      .ok (none, FileCompressed.new bytes n)) ∧
    (∀ k f, (fileCompressedGet z cd srt srtU).getMut (FileCompressed.new bytes n) k f =
      .ok (none, FileCompressed.new bytes n)) := by
  have hb : (FileCompressed.new bytes n).readBytes z = none := rfl
  have hr : (FileCompressed.new bytes n).read z cd = none := rfl
  refine ⟨?_, rfl, rfl, fun _ _ => rfl, fun _ _ => rfl⟩
  induction ops with
  | nil => rfl
  | cons op ops ih =>
    have h1 : (fileCompressed z cd srt srtU).observe (FileCompressed.new bytes n) op =
        .ok (refuses op, FileCompressed.new bytes n) := by
      cases op <;> rfl
    simp only [Block.observes, h1, Res.ok_bind, ih, Res.pure_eq, List.map_cons]

omit [LinearOrder V] in
/-- **C80, configurations.** The configuration of any `Compressed` builder, on a file or in memory,
builds such a container. -/
theorem C80_config (w : World) (P : Params K V) (f : Option String) (n : Nat)
    (hf : ∀ s, f = some s → w.opens s = true) :
    ∃ b, Config.build w P (Bld.compressed f n).toml = .ok b ∧
      (∀ l, b.block.push b.state l = .ok (l, b.state)) ∧
      (∀ k, b.block.contains b.state k = .ok (false, b.state) ∧
        b.block.take b.state k = .ok (none, b.state)) ∧
      (∀ m, b.block.pop b.state m = .ok ([], b.state)) ∧ b.block.flush b.state = .ok ([], b.state) ∧
      b.block.size b.state = 0 ∧ b.capacity = n := by
  refine ⟨.new (fileCompressed P.lz4 P.vecCodec P.srt P.srtU)
    (FileCompressed.new ((f.map w.contents).getD []) n) false, ?_, fun _ => rfl, fun _ => ⟨rfl, rfl⟩,
    fun _ => rfl, rfl, rfl, rfl⟩
  cases f with
  | none =>
    exact Config.build_iff.2 ⟨_, "CompressedConfig", .compressed none n, [], [], rfl, rfl,
      Config.parse_iff.2 (.compressed rfl rfl), .nil, .nil, rfl⟩
  | some s =>
    refine Config.build_iff.2 ⟨_, "CompressedConfig", .compressed (some s) n, [], [], rfl, rfl,
      Config.parse_iff.2 (.compressed rfl rfl), .nil, .nil, ?_⟩
    simp [Config.assemble, hf s rfl]

/-- One element of 2 bytes, in a container of 100 bytes: stored in memory, refused with a file. -/
theorem C80_example :
    (∃ s, (compressed CompressedProps.noComp CompressedProps.smallVec ⟨id, fun _ => .refl _⟩ ⟨id, fun _ => .refl _⟩).observes
      (Compressed.new 100) [.push [(1, 0)], .contains 1] = .ok ([.many [], .bool true], s)) ∧
    (fileCompressed CompressedProps.noComp CompressedProps.smallVec ⟨id, fun _ => .refl _⟩ ⟨id, fun _ => .refl _⟩).observes
      (FileCompressed.new [] 100) [.push [(1, 0)], .contains 1] =
      .ok ([.many [(1, 0)], .bool false], FileCompressed.new [] 100) :=
  ⟨⟨_, rfl⟩, rfl⟩

/-- **C80 is false of the code.** -/
theorem C80_false : ¬ C80_full := by
  intro h
  obtain ⟨s, hs⟩ := C80_example.1
  obtain ⟨t, h2, -⟩ := h Nat Nat inferInstance _ _ CompressedProps.smallVec_law _ _ 100 _ _ s hs
  rw [C80_example.2] at h2
  cases h2

end FileProps
end Byoc
