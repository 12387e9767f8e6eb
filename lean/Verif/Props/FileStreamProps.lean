import Verif.Model.FileBacked
import Verif.Props.StreamProps

/-!
# C104: a stream on a file

`FileStream` and `VecStream` implement the same trait, and the containers made of bytes take either.
-/

namespace Byoc.FileStreamProps

open List StreamProps

/-- What the caller of an operation on a stream sees. -/
inductive FileObs where
  | bytes (b : List UInt8)
  | nat (n : Nat)
  | unit
  | error
  | panic
deriving DecidableEq

/-- One operation on a stream in memory: what it returns, and the stream. -/
def vecStep (s : VecStream) : FileOp → FileObs × VecStream
  | .read n => (.bytes (s.read n).1, (s.read n).2)
  | .write b => match s.write b with
    | .ok (n, t) => (.nat n, t)
    | .panic => (.panic, s)
  | .seek w => (.nat (s.seek w).1, (s.seek w).2)
  | .resize n => (.unit, s.resize n)

/-- One operation on a stream on a file: what it returns, and the stream. -/
def fileStep (s : FileStream) : FileOp → FileObs × FileStream
  | .read n => match s.read n with
    | some (b, t) => (.bytes b, t)
    | none => (.error, s)
  | .write b => match s.write b with
    | some (n, t) => (.nat n, t)
    | none => (.error, s)
  | .seek w => match s.seek w with
    | some (n, t) => (.nat n, t)
    | none => (.error, s)
  | .resize n => match s.resize n with
    | some t => (.unit, t)
    | none => (.error, s)

/-- A sequence of operations. -/
def vecRun : VecStream → List FileOp → List FileObs × VecStream
  | s, [] => ([], s)
  | s, op :: ops => ((vecStep s op).1 :: (vecRun (vecStep s op).2 ops).1, (vecRun (vecStep s op).2 ops).2)

def fileRun : FileStream → List FileOp → List FileObs × FileStream
  | s, [] => ([], s)
  | s, op :: ops => ((fileStep s op).1 :: (fileRun (fileStep s op).2 ops).1, (fileRun (fileStep s op).2 ops).2)

/-- Full statement: a stream on a new file gives what a stream in memory does. -/
def C104_full : Prop := ∀ ops : List FileOp, (fileRun (FileStream.new []) ops).1 = (vecRun VecStream.new ops).1

/-- The position asked by a seek. -/
def target (len pos : Nat) : SeekFrom → Int
  | .start n => n
  | .end n => len + n
  | .current n => pos + n

/-- **C104 (seeking).** The position asked, wherever it is from the start of the file on; before, an error and nothing moves.
The file is not changed. -/
theorem C104_seek (s : FileStream) (w : SeekFrom) :
    (target s.vec.length s.pos w < 0 → s.seek w = none) ∧
    ∀ p : Nat, target s.vec.length s.pos w = p → s.seek w = some (p, { s with pos := p }) := by
  constructor
  · intro h; cases w <;> simp_all [FileStream.seek, target]
  · intro p h
    cases w <;> simp only [target] at h <;> simp only [FileStream.seek, h] <;> simp

/-- **C104 (writing).** The bytes are written at the cursor and the cursor moves behind them; what is between the end of
the file and the cursor is filled with zeros, and nothing else changes. -/
theorem C104_write (s : FileStream) (hw : s.opts.write = true) (buf : List UInt8) :
    ∃ s', s.write buf = some (buf.length, s') ∧ s'.pos = s.pos + buf.length ∧ s'.opts = s.opts ∧
      s'.vec.length = max s.vec.length (s.pos + buf.length) ∧
      ∀ i < s'.vec.length, s'.vec[i]? =
        if s.pos ≤ i ∧ i < s.pos + buf.length then buf[i - s.pos]?
        else if i < s.vec.length then s.vec[i]? else some 0 := by
  have he : s.write buf = some (buf.length, { s with
      vec := VecStream.overwrite (if s.vec.length < s.pos then VecStream.resizeVec s.vec s.pos else s.vec) s.pos buf,
      pos := s.pos + buf.length }) := by simp only [FileStream.write, hw, if_true]
  refine ⟨_, he, rfl, rfl, ?_, ?_⟩
  · simp only [VecStream.overwrite, VecStream.resizeVec, List.length_append, List.length_take, List.length_drop]
    split
    · rw [if_neg (by omega)]; simp; omega
    · omega
  · intro i hi
    simp only
    generalize hv : (if s.vec.length < s.pos then VecStream.resizeVec s.vec s.pos else s.vec) = v
    have hl : s.pos ≤ v.length := by
      rw [← hv]; split
      · simp only [VecStream.resizeVec]; rw [if_neg (by omega)]; simp; omega
      · omega
    have hg : ∀ i < v.length, v[i]? = if i < s.vec.length then s.vec[i]? else some 0 := by
      intro i hi
      rw [← hv] at hi ⊢
      split at hi
      · rename_i hlt
        rw [if_pos hlt]
        simp only [VecStream.resizeVec, if_neg (Nat.not_le.2 hlt)] at hi ⊢
        split
        · rw [List.getElem?_append_left (by assumption)]
        · rw [List.getElem?_append_right (by omega), List.getElem?_replicate]
          simp at hi
          rw [if_pos (by omega)]
      · rename_i hlt
        rw [if_neg hlt, if_pos hi]
    simp only [hv, VecStream.overwrite, List.append_assoc] at hi ⊢
    simp only [List.length_append, List.length_take, List.length_drop] at hi
    by_cases h1 : i < s.pos
    · rw [List.getElem?_append_left (by simp; omega), List.getElem?_take_of_lt h1, if_neg (by omega)]
      exact hg i (by omega)
    · rw [List.getElem?_append_right (by simp; omega)]
      simp only [List.length_take, Nat.min_eq_left hl]
      by_cases h2 : i < s.pos + buf.length
      · rw [List.getElem?_append_left (by omega), if_pos ⟨by omega, h2⟩]
      · rw [List.getElem?_append_right (by omega), if_neg (by omega), List.getElem?_drop]
        rw [show s.pos + buf.length + (i - s.pos - buf.length) = i by omega]
        exact hg i (by omega)

/-- **C104 (resizing).** The length is the one asked, kept bytes are unchanged, new ones are zero; the cursor stays where
it is. -/
theorem C104_resize (s : FileStream) (hw : s.opts.write = true) (n : Nat) :
    ∃ s', s.resize n = some s' ∧ s'.pos = s.pos ∧ s'.opts = s.opts ∧ s'.vec.length = n ∧
      ∀ i < n, s'.vec[i]? = if i < s.vec.length then s.vec[i]? else some 0 := by
  obtain ⟨h1, -, h3⟩ := C50_resize ⟨s.vec, s.pos⟩ n
  have he : s.resize n = some { s with vec := VecStream.resizeVec s.vec n } := by
    simp only [FileStream.resize, hw, if_true]
  exact ⟨_, he, rfl, rfl, h1, h3⟩

theorem fileStep_opts (s : FileStream) (op : FileOp) : (fileStep s op).2.opts = s.opts := by
  cases op with
  | read n =>
    simp only [fileStep, FileStream.read]
    split
    · rename_i h; split at h <;> cases h; rfl
    · rfl
  | write b =>
    simp only [fileStep, FileStream.write]
    split
    · rename_i h; split at h <;> cases h; rfl
    · rfl
  | seek w =>
    rcases lt_or_ge (target s.vec.length s.pos w) 0 with h | h
    · simp only [fileStep, (C104_seek s w).1 h]
    · simp only [fileStep, (C104_seek s w).2 _ (Int.toNat_of_nonneg h).symm]
  | resize n =>
    simp only [fileStep, FileStream.resize]
    split
    · rename_i h; split at h <;> cases h; rfl
    · rfl

theorem fileRun_opts (ops : List FileOp) : ∀ s : FileStream, (fileRun s ops).2.opts = s.opts := by
  induction ops with
  | nil => intro s; rfl
  | cons op ops ih => intro s; simp only [fileRun]; rw [ih, fileStep_opts]

/-- **C104 (reading).** Whatever was done with a `FileStream`, a read is an error and changes nothing; writing and
resizing never are errors. -/
theorem C104_never_reads (bytes : List UInt8) (ops : List FileOp) (n : Nat) :
    let s := (fileRun (FileStream.new bytes) ops).2
    fileStep s (.read n) = (.error, s) ∧
    (∀ b, (fileStep s (.write b)).1 = .nat b.length) ∧ ∀ m, (fileStep s (.resize m)).1 = .unit := by
  intro s
  have ho : s.opts = (FileStream.new bytes).opts := fileRun_opts ops _
  simp [fileStep, FileStream.read, FileStream.write, FileStream.resize, ho, FileStream.new]

/-- The operations do not read, and leave the cursor in the file. -/
def Within : Nat → Nat → List FileOp → Prop
  | _, _, [] => True
  | _, _, .read _ :: _ => False
  | len, pos, .write b :: ops => Within (max len (pos + b.length)) (pos + b.length) ops
  | len, pos, .seek w :: ops => 0 ≤ target len pos w ∧ target len pos w ≤ len ∧ Within len (target len pos w).toNat ops
  | _, pos, .resize n :: ops => pos ≤ n ∧ Within n pos ops

theorem within_run (ops : List FileOp) : ∀ (s : VecStream) (t : FileStream), s.vec = t.vec → s.pos = t.pos →
    s.pos ≤ s.vec.length → t.opts.write = true → Within t.vec.length t.pos ops →
    (fileRun t ops).1 = (vecRun s ops).1 ∧ (fileRun t ops).2.vec = (vecRun s ops).2.vec ∧
      (fileRun t ops).2.pos = (vecRun s ops).2.pos := by
  induction ops with
  | nil => intro s t h1 h2 _ _ _; exact ⟨rfl, h1.symm, h2.symm⟩
  | cons op ops ih =>
    intro s t h1 h2 h3 hw h
    have key : (fileStep t op).1 = (vecStep s op).1 ∧ (vecStep s op).2.vec = (fileStep t op).2.vec ∧
        (vecStep s op).2.pos = (fileStep t op).2.pos ∧ (vecStep s op).2.pos ≤ (vecStep s op).2.vec.length ∧
        Within (fileStep t op).2.vec.length (fileStep t op).2.pos ops := by
      cases op with
      | read n => exact h.elim
      | write b =>
        obtain ⟨s', e1, p1, l1, -⟩ := C50_write s b h3
        obtain ⟨t', e2, p2, -, l2, -⟩ := C104_write t hw b
        have hv : s'.vec = t'.vec := by
          have g1 := VecStream.write_spec s b h3
          rw [e1] at g1
          obtain rfl : s' = _ := by simpa using congrArg (fun r => match r with | .ok x => x.2 | .panic => s) g1
          have g2 : t.write b = some (b.length, { t with vec := VecStream.overwrite t.vec t.pos b, pos := t.pos + b.length }) := by
            simp only [FileStream.write, hw, if_true]
            rw [if_neg (by rw [← h1, ← h2]; omega)]
          rw [e2] at g2
          obtain rfl : t' = _ := by simpa using g2
          simp [h1, h2]
        simp only [fileStep, vecStep, e1, e2]
        refine ⟨trivial, hv, by omega, by omega, ?_⟩
        rw [l2, p2]; exact h
      | seek w =>
        obtain ⟨g1, g2, g3⟩ := h
        obtain ⟨c1, c2, c3⟩ := C50_seek s w
        obtain ⟨-, f⟩ := C104_seek t w
        have e := f _ (Int.toNat_of_nonneg g1).symm
        have hp : ((s.seek w).2.pos : Int) = target t.vec.length t.pos w := by
          rw [c3]; rw [← h1, ← h2] at *
          cases w <;> simp only [target] at * <;> omega
        have hp' : (s.seek w).2.pos = (target t.vec.length t.pos w).toNat := by omega
        simp only [fileStep, vecStep, e]
        refine ⟨by rw [c2, hp'], by rw [c1, h1], hp', by rw [c1, h1]; omega, g3⟩
      | resize n =>
        obtain ⟨g1, g2⟩ := h
        obtain ⟨c1, c2, -⟩ := C50_resize s n
        obtain ⟨t', e, p, -, l, -⟩ := C104_resize t hw n
        have hv : t'.vec = VecStream.resizeVec t.vec n := by
          have : t.resize n = some { t with vec := VecStream.resizeVec t.vec n } := by
            simp only [FileStream.resize, hw, if_true]
          rw [e] at this
          obtain rfl : t' = _ := by simpa using this
          rfl
        simp only [fileStep, vecStep, e]
        refine ⟨trivial, by rw [hv, ← h1]; rfl, by omega, by omega, ?_⟩
        rw [l, p]; exact g2
    obtain ⟨k1, k2, k3, k4, k5⟩ := key
    obtain ⟨r1, r2⟩ := ih _ _ k2 k3 k4 (by rw [fileStep_opts]; exact hw) k5
    simp only [fileRun, vecRun]
    exact ⟨by rw [k1, r1], r2⟩

/-- **C104 (agreement).** Operations that do not read and leave the cursor in the file give the same results on a file
and in memory, and the same bytes. -/
theorem C104_same_partial (ops : List FileOp) (h : Within 0 0 ops) :
    (fileRun (FileStream.new []) ops).1 = (vecRun VecStream.new ops).1 ∧
    (fileRun (FileStream.new []) ops).2.vec = (vecRun VecStream.new ops).2.vec := by
  obtain ⟨h1, h2, -⟩ := within_run ops VecStream.new (FileStream.new []) rfl rfl le_rfl rfl h
  exact ⟨h1, h2⟩

/-- Reading fails. -/
theorem C104_false : ¬ C104_full := fun h => by
  have := h [.read 1]
  revert this; decide

/-- Nor do they agree when nothing is read: a seek before the start, behind the end, a write after the file was cut. -/
theorem C104_differ :
    (fileRun (FileStream.new []) [.seek (.current (-1))]).1 ≠ (vecRun VecStream.new [.seek (.current (-1))]).1 ∧
    (fileRun (FileStream.new []) [.seek (.start 2), .write [1]]).2.vec = [0, 0, 1] ∧
    (vecRun VecStream.new [.seek (.start 2), .write [1]]).2.vec = [1] ∧
    (fileRun (FileStream.new []) [.write [1, 2], .resize 0, .write [3]]).2.vec = [0, 0, 3] ∧
    (vecRun VecStream.new [.write [1, 2], .resize 0, .write [3]]).2.vec = [3] := by
  decide

example : Within 0 0 [.write [1, 2, 3], .seek (.end (-2)), .write [7], .resize 2, .seek (.current (-1))] := by
  simp [Within, target]

/-! ## IOVec on a file that can be read -/

section
variable {O : Type} (cd : Codec O)

/-- The same bytes in memory and in a file open for reading and writing; the cursor of a file may be behind its end. -/
def Mir (s : VecStream) (t : FileStream) : Prop :=
  s.vec = t.vec ∧ t.opts.read = true ∧ t.opts.write = true ∧ s.pos = min t.pos t.vec.length

theorem Mir.read {s : VecStream} {t : FileStream} (h : Mir s t) (n : Nat) :
    ∃ t', t.read n = some ((s.read n).1, t') ∧ Mir (s.read n).2 t' ∧ (s.read n).2.vec = s.vec := by
  obtain ⟨h1, h2, h3, h4⟩ := h
  obtain ⟨c1, c2, c3⟩ := C50_read s n (by rw [h1]; omega)
  have hd : t.vec.drop t.pos = s.vec.drop s.pos := by
    rw [h1, h4]
    rcases le_total t.pos t.vec.length with h | h
    · rw [Nat.min_eq_left h]
    · rw [Nat.min_eq_right h, List.drop_eq_nil_of_le h, List.drop_eq_nil_of_le le_rfl]
  refine ⟨{ t with pos := t.pos + (s.read n).1.length }, ?_, ⟨by rw [c2, h1], h2, h3, ?_⟩, c2⟩
  · simp only [FileStream.read, h2, if_true, hd, c1]
  · rw [c3]
    have : (s.read n).1.length ≤ s.vec.length - s.pos := by rw [c1]; simp
    rw [h1] at this
    simp only
    omega

theorem Mir.seek_start {s : VecStream} {t : FileStream} (h : Mir s t) (n : Nat) :
    t.seek (.start n) = some (n, { t with pos := n }) ∧ Mir (s.seek (.start n)).2 { t with pos := n } := by
  obtain ⟨h1, h2, h3, -⟩ := h
  obtain ⟨c1, -, c3⟩ := C50_seek s (.start n)
  refine ⟨(C104_seek t _).2 n rfl, by rw [c1, h1], h2, h3, ?_⟩
  simp only [h1] at c3 ⊢
  omega

theorem Mir.seek_end {s : VecStream} {t : FileStream} (h : Mir s t) :
    t.seek (.end 0) = some ((s.seek (.end 0)).1, { t with pos := t.vec.length }) ∧
      Mir (s.seek (.end 0)).2 { t with pos := t.vec.length } ∧ (s.seek (.end 0)).1 = t.vec.length := by
  obtain ⟨h1, h2, h3, -⟩ := h
  obtain ⟨c1, c2, c3⟩ := C50_seek s (.end 0)
  have : (s.seek (.end 0)).2.pos = t.vec.length := by rw [h1] at c3; simp only at c3; omega
  refine ⟨?_, ⟨by rw [c1, h1], h2, h3, by simpa using this⟩, by rw [c2, this]⟩
  rw [c2, this]
  exact (C104_seek t _).2 _ (by simp [target])

theorem Mir.write {s : VecStream} {t : FileStream} (h : Mir s t) (hp : t.pos ≤ t.vec.length) (b : List UInt8) :
    ∃ s' t', s.write b = .ok (b.length, s') ∧ t.write b = some (b.length, t') ∧ Mir s' t' ∧ t'.pos ≤ t'.vec.length := by
  obtain ⟨h1, h2, h3, h4⟩ := h
  rw [Nat.min_eq_left hp] at h4
  obtain ⟨t', e2, p2, o2, l2, -⟩ := C104_write t h3 b
  have g2 : t.write b = some (b.length, { t with vec := VecStream.overwrite t.vec t.pos b, pos := t.pos + b.length }) := by
    simp only [FileStream.write, h3, if_true]
    rw [if_neg (by omega)]
  have hs := VecStream.write_spec s b (by rw [h1, h4]; exact hp)
  rw [e2] at g2
  obtain rfl : t' = _ := by simpa using g2
  refine ⟨_, _, hs, e2, ⟨by simp [h1, h4], h2, h3, ?_⟩, by omega⟩
  simp only at l2 ⊢
  omega

theorem Mir.resize {s : VecStream} {t : FileStream} (h : Mir s t) (n : Nat) (hn : n ≤ t.vec.length) :
    ∃ t', t.resize n = some t' ∧ Mir (s.resize n) t' := by
  obtain ⟨h1, h2, h3, h4⟩ := h
  obtain ⟨t', e, p, o, l, -⟩ := C104_resize t h3 n
  have g : t.resize n = some { t with vec := VecStream.resizeVec t.vec n } := by
    simp only [FileStream.resize, h3, if_true]
  rw [e] at g
  obtain rfl : t' = _ := by simpa using g
  obtain ⟨c1, c2, -⟩ := C50_resize s n
  refine ⟨_, e, ⟨by simp [VecStream.resize, h1], h2, h3, ?_⟩⟩
  simp only at l ⊢
  rw [c2, l, h4]
  omega

theorem Mir.bufRead {s : VecStream} {t : FileStream} (h : Mir s t) (buf : List UInt8) (n : Nat) :
    ∃ t', fileBufRead t buf n = some ((Byoc.bufRead s buf n).1, t', (Byoc.bufRead s buf n).2.2) ∧
      Mir (Byoc.bufRead s buf n).2.1 t' := by
  unfold fileBufRead Byoc.bufRead
  split
  · obtain ⟨t', e, m, -⟩ := h.read n
    exact ⟨t', by simp [e], m⟩
  · by_cases hb : buf = []
    · obtain ⟨t', e, m, -⟩ := h.read bufCap
      exact ⟨t', by simp [e, hb], by simpa [hb] using m⟩
    · exact ⟨t, by simp [hb], by simpa [hb] using h⟩

theorem Mir.iterGo (c : Nat) (fuel : Nat) : ∀ {s : VecStream} {t : FileStream} (_ : Mir s t) (buf : List UInt8),
    FileVec.iterGo cd c fuel t buf = IOVec.iterGo cd c fuel s buf := by
  induction fuel with
  | zero => intros; rfl
  | succ fuel ih =>
    intro s t h buf
    obtain ⟨t', e, m⟩ := h.bufRead buf c
    simp only [FileVec.iterGo, IOVec.iterGo, e]
    split
    · rfl
    · rw [ih m]

/-- The same vector in memory and in a file open for reading and writing. -/
def Mirror (v : IOVec) (u : FileVec) : Prop := Mir v.stream u.stream ∧ v.chunk = u.chunk

theorem appendLoop_mirror (c : Nat) (l : List O) : ∀ {s : VecStream} {t : FileStream}, Mir s t → t.pos ≤ t.vec.length →
    ∃ b s' t', IOVec.appendLoop cd c l s = .ok (b, s') ∧ FileVec.appendLoop cd c l t = (b, t') ∧ Mir s' t' := by
  induction l with
  | nil => intro s t h _; exact ⟨true, s, t, rfl, rfl, h⟩
  | cons o l ih =>
    intro s t h hp
    simp only [IOVec.appendLoop, FileVec.appendLoop]
    cases IOVec.chunkOf cd c o with
    | none => exact ⟨false, s, t, rfl, rfl, h⟩
    | some ch =>
      obtain ⟨s', t', e1, e2, m, p⟩ := h.write hp ch
      obtain ⟨b, s'', t'', f1, f2, m'⟩ := ih m p
      exact ⟨b, s'', t'', by simp [e1, f1], by simp [e2, f2], m'⟩

/-- `swap_remove` once the element is read, in memory. -/
def vecTail (c pos : Nat) (item : Option O) (s : VecStream) : Res (Option O × VecStream) :=
  let (e, s) := s.seek (.end 0)
  if e < c then .ok (none, s)
  else (if pos < e - c then (
        let s := (s.seek (.start (e - c))).2
        let (last, s) := s.read c
        if last.length < c then Res.panic
        else (
          let s := (s.seek (.start pos)).2
          (s.write last).bind fun r => Res.ok r.2))
      else Res.ok s).bind fun s => .ok (item, s.resize (e - c))

/-- On a file. -/
def fileTail (c pos : Nat) (item : Option O) (s : FileStream) : Res (Option (Option O) × FileStream) :=
  match s.seek (.end 0) with
  | none => .ok (none, s)
  | some (e, s) =>
    if e < c then .ok (some none, s)
    else if pos < e - c then
      match s.seek (.start (e - c)) with
      | none => .ok (none, s)
      | some (_, s) =>
        match s.read c with
        | none => .ok (none, s)
        | some (last, s) =>
          if last.length < c then .panic
          else match s.seek (.start pos) with
            | none => .ok (none, s)
            | some (_, s) =>
              match s.write last with
              | none => .ok (none, s)
              | some (_, s) => (Res.unwrap (s.resize (e - c))).bind fun s => .ok (some item, s)
    else (Res.unwrap (s.resize (e - c))).bind fun s => .ok (some item, s)

theorem tail_mirror (c pos : Nat) (item : Option O) {s : VecStream} {t : FileStream} (h : Mir s t) :
    ∃ r s' t', vecTail c pos item s = .ok (r, s') ∧ fileTail c pos item t = .ok (some r, t') ∧ Mir s' t' := by
  obtain ⟨e1, m1, l1⟩ := h.seek_end
  have hv1 : ({ t with pos := t.vec.length } : FileStream).vec = t.vec := rfl
  simp only [vecTail, fileTail, e1]
  rw [l1]
  generalize ({ t with pos := t.vec.length } : FileStream) = t1 at *
  generalize (s.seek (.end 0)).2 = s1 at *
  split
  · exact ⟨none, _, _, rfl, rfl, m1⟩
  · rename_i hle
    split
    · rename_i hlt
      obtain ⟨e2, m2⟩ := m1.seek_start (t.vec.length - c)
      obtain ⟨t3, e3, m3, v3⟩ := m2.read c
      have hl : ((s1.seek (.start (t.vec.length - c))).2.read c).1.length = c := by
        obtain ⟨q1, -, q3⟩ := C50_seek s1 (.start (t.vec.length - c))
        have hs : s1.vec = t.vec := by rw [m1.1, hv1]
        obtain ⟨r1, -, -⟩ := C50_read (s1.seek (.start (t.vec.length - c))).2 c (by rw [q1]; simp only at q3; omega)
        rw [r1, List.length_take, List.length_drop, q1, hs]
        rw [hs] at q3
        simp only at q3
        omega
      obtain ⟨e4, m4⟩ := m3.seek_start pos
      have hv3 : t3.vec = t.vec := by
        rw [← m3.1, v3, m2.1, ← hv1]
      obtain ⟨s5, t5, w1, w2, m5, -⟩ := m4.write (by simp only [hv3]; omega) ((s1.seek (.start (t.vec.length - c))).2.read c).1
      have hv5 : t5.vec.length = t.vec.length := by
        obtain ⟨t', g, -, -, g2, -⟩ := C104_write { t3 with pos := pos } m4.2.2.1
          ((s1.seek (.start (t.vec.length - c))).2.read c).1
        rw [w2] at g
        obtain rfl : t5 = t' := by simpa using g
        rw [g2, hl, hv3]
        exact Nat.max_eq_left (show pos + c ≤ _ by omega)
      obtain ⟨t6, e6, m6⟩ := m5.resize (t.vec.length - c) (by omega)
      refine ⟨item, _, t6, ?_, ?_, m6⟩
      · simp only [if_neg (show ¬ ((s1.seek (.start (t.vec.length - c))).2.read c).1.length < c by omega), w1]; rfl
      · simp only [e2, e3, if_neg (show ¬ ((s1.seek (.start (t.vec.length - c))).2.read c).1.length < c by omega), e4, w2,
          e6, Res.unwrap_some]; rfl
    · obtain ⟨t6, e6, m6⟩ := m1.resize (t.vec.length - c) (by rw [hv1]; omega)
      exact ⟨item, _, t6, rfl, by simp only [e6, Res.unwrap_some]; rfl, m6⟩

/-- **C104 (vectors).** Were the file open for reading as well, a vector of elements in a file would give what one in
memory gives: its size, its elements, what `append` and `swap_remove` return, whatever the cursor; and a failure to
decode, which is an error on one side, panics in memory. -/
theorem C104_readable_partial {v : IOVec} {u : FileVec} (h : Mirror v u) :
    u.size = v.size ∧ u.iter cd = v.iter cd ∧ u.intoIter cd = v.intoIter cd ∧
    (∀ l, ∃ b v' u', v.append cd l = .ok (b, v') ∧ u.append cd l = (b, u') ∧ Mirror v' u') ∧
    ∀ n, (∃ r v' u', v.swapRemove cd n = .ok (r, v') ∧ u.swapRemove cd n = .ok (some r, u') ∧ Mirror v' u') ∨
      (v.swapRemove cd n = .panic ∧ ∃ u', u.swapRemove cd n = .ok (none, u')) := by
  obtain ⟨hm, hc⟩ := h
  have hlen : v.stream.vec.length = u.stream.vec.length := by rw [hm.1]
  refine ⟨?_, ?_, ?_, ?_, ?_⟩
  · obtain ⟨e, -, -⟩ := hm.seek_end
    simp only [FileVec.size, IOVec.size, e]
  · obtain ⟨e, m⟩ := hm.seek_start 0
    simp only [FileVec.iter, IOVec.iter, e, Res.unwrap_some, Res.ok_bind, hc, hlen]
    exact Mir.iterGo cd _ _ m []
  · simp only [FileVec.intoIter, IOVec.intoIter, hc, hlen]
    exact Mir.iterGo cd _ _ hm []
  · intro l
    obtain ⟨e, m, -⟩ := hm.seek_end
    obtain ⟨b, s', t', e1, e2, m'⟩ := appendLoop_mirror cd u.chunk l.reverse m le_rfl
    refine ⟨b, ⟨s', v.chunk⟩, ⟨t', u.chunk⟩, ?_, ?_, m', hc⟩
    · simp only [IOVec.append, hc, e1, Res.ok_bind]; rfl
    · simp only [FileVec.append, e, e2]
  · intro n
    obtain ⟨e1, m1⟩ := hm.seek_start (n * u.chunk)
    obtain ⟨t2, e2, m2, c2⟩ := m1.read u.chunk
    have main : ∀ item : Option O, ∃ r s' t', vecTail u.chunk (n * u.chunk) item
          ((v.stream.seek (.start (n * u.chunk))).2.read u.chunk).2 = .ok (r, s') ∧
        fileTail u.chunk (n * u.chunk) item t2 = .ok (some r, t') ∧ Mir s' t' := fun item => tail_mirror _ _ item m2
    have hv : v.swapRemove cd n = ((if ((v.stream.seek (.start (n * u.chunk))).2.read u.chunk).1.length < u.chunk then
          pure none else (Res.unwrap (cd.dec ((v.stream.seek (.start (n * u.chunk))).2.read u.chunk).1)).bind fun o =>
            Res.ok (some o)) : Res (Option O)).bind fun item =>
          (vecTail u.chunk (n * u.chunk) item ((v.stream.seek (.start (n * u.chunk))).2.read u.chunk).2).bind fun r =>
            .ok (r.1, ⟨r.2, v.chunk⟩) := by
      simp only [IOVec.swapRemove, hc, vecTail]
      generalize (v.stream.seek (.start (n * u.chunk))).2.read u.chunk = x
      split
      · show _ = (Res.bind _ fun r => _)
        split
        · rfl
        · split
          · split
            · rfl
            · cases VecStream.write _ _ <;> rfl
          · rfl
      · cases cd.dec x.1 with
        | none => rfl
        | some o =>
          show _ = (Res.bind _ fun r => _)
          simp only [Res.unwrap_some, Res.ok_bind]
          split
          · rfl
          · split
            · split
              · rfl
              · cases VecStream.write _ _ <;> rfl
            · rfl
    have hu : u.swapRemove cd n =
        match (if ((v.stream.seek (.start (n * u.chunk))).2.read u.chunk).1.length < u.chunk then some none else
          (cd.dec ((v.stream.seek (.start (n * u.chunk))).2.read u.chunk).1).map some) with
        | none => .ok (none, ⟨t2, u.chunk⟩)
        | some item => (fileTail u.chunk (n * u.chunk) item t2).bind fun r => .ok (r.1, ⟨r.2, u.chunk⟩) := by
      simp only [FileVec.swapRemove, e1, e2, fileTail]
      generalize (if ((v.stream.seek (.start (n * u.chunk))).2.read u.chunk).1.length < u.chunk then some none else
          (cd.dec ((v.stream.seek (.start (n * u.chunk))).2.read u.chunk).1).map some) = x
      cases x with
      | none => rfl
      | some item =>
        simp only
        cases t2.seek (.end 0) with
        | none => rfl
        | some p =>
          simp only
          split
          · rfl
          · split
            · cases p.2.seek (.start (p.1 - u.chunk)) with
              | none => rfl
              | some q =>
                simp only
                cases q.2.read u.chunk with
                | none => rfl
                | some r =>
                  simp only
                  split
                  · rfl
                  · cases r.2.seek (.start (n * u.chunk)) with
                    | none => rfl
                    | some w =>
                      simp only
                      cases w.2.write r.1 with
                      | none => rfl
                      | some y => simp only; cases y.2.resize (p.1 - u.chunk) <;> rfl
            · cases p.2.resize (p.1 - u.chunk) <;> rfl
    rw [hv, hu]
    split
    · obtain ⟨r, s', t', g1, g2, m⟩ := main none
      exact .inl ⟨r, ⟨s', v.chunk⟩, ⟨t', u.chunk⟩,
        (congrArg (fun x => Res.bind x fun r : Option O × VecStream => Res.ok (r.1, (⟨r.2, v.chunk⟩ : IOVec))) g1),
        (congrArg (fun x => Res.bind x fun r : Option (Option O) × FileStream => Res.ok (r.1, (⟨r.2, u.chunk⟩ : FileVec))) g2),
        m, hc⟩
    · cases hd : cd.dec ((v.stream.seek (.start (n * u.chunk))).2.read u.chunk).1 with
      | none => exact .inr ⟨rfl, _, rfl⟩
      | some o =>
        obtain ⟨r, s', t', g1, g2, m⟩ := main (some o)
        exact .inl ⟨r, ⟨s', v.chunk⟩, ⟨t', u.chunk⟩,
          (congrArg (fun x => Res.bind x fun r : Option O × VecStream => Res.ok (r.1, (⟨r.2, v.chunk⟩ : IOVec))) g1),
          (congrArg (fun x => Res.bind x fun r : Option (Option O) × FileStream => Res.ok (r.1, (⟨r.2, u.chunk⟩ : FileVec))) g2),
          m, hc⟩

end

/-- A file with two elements, open for reading and writing, its cursor behind its end. -/
example : Mirror ⟨⟨[1, 2, 3, 4], 4⟩, 2⟩ ⟨⟨[1, 2, 3, 4], 9, ⟨true, true, true⟩⟩, 2⟩ := ⟨⟨rfl, rfl, rfl, rfl⟩, rfl⟩

end Byoc.FileStreamProps
