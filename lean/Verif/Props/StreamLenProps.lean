import Verif.Model.StreamLen
import Verif.Props.FileStreamProps

/-!
# C106: `len` and `is_empty` of streams
-/

namespace Byoc.StreamLenProps

open FileStreamProps StreamProps List

/-- What a stream in memory holds: what reading it from the start gives. -/
def Holds (s : VecStream) (l : List UInt8) : Prop := ∀ n, ((s.seek (.start 0)).2.read n).1 = l.take n

/-- Full statement: after any operations, `len` tells the number of bytes, `is_empty` whether there is none, and asking does
not change what the operations that follow return. -/
def C106_full : Prop := ∀ (ops ops' : List FileOp) (l : List UInt8), Holds (vecRun .new ops).2 l →
  (vecRun .new ops).2.len.1 = l.length ∧ (vecRun .new ops).2.isEmpty.1 = l.isEmpty ∧
    (vecRun (vecRun .new ops).2.len.2 ops').1 = (vecRun (vecRun .new ops).2 ops').1 ∧
    (vecRun (vecRun .new ops).2.isEmpty.2 ops').1 = (vecRun (vecRun .new ops).2 ops').1

theorem holds_iff (s : VecStream) (l : List UInt8) : Holds s l ↔ l = s.vec := by
  have key : ∀ n, ((s.seek (.start 0)).2.read n).1 = s.vec.take n := by
    intro n
    have h0 : (s.seek (.start 0)).2 = { s with pos := 0 } := by
      simp only [VecStream.seek]
      have h1 : ¬ ((0 : ℕ) : Int) > (s.vec.length : Int) := by omega
      have h2 : ¬ ((0 : ℕ) : Int) < 0 := by omega
      rw [if_neg h2, if_neg h1]
      rfl
    rw [h0]
    simp only [VecStream.read]
    split
    · rename_i h
      have : s.vec = [] := eq_nil_of_length_eq_zero (by omega)
      simp [this]
    · simp only [drop_zero, Nat.sub_zero]
      split
      · rename_i h; rw [take_of_length_le le_rfl, take_of_length_le (by omega)]
      · rfl
  unfold Holds
  constructor
  · intro h
    have h1 := h (max l.length s.vec.length)
    rw [key, take_of_length_le (by omega), take_of_length_le (by omega)] at h1
    exact h1.symm
  · rintro rfl; exact key

theorem len_eq (s : VecStream) : s.len = (s.vec.length, ⟨s.vec, s.vec.length⟩) := by
  have h1 : ¬ ((0 : Int) + (s.vec.length : Int)) > (s.vec.length : Int) := by omega
  have h2 : ¬ ((0 : Int) + (s.vec.length : Int)) < 0 := by omega
  simp only [VecStream.len, VecStream.seek]
  rw [if_neg h2, if_neg h1]
  simp

theorem file_len_eq (s : FileStream) : s.len = some (s.vec.length, ⟨s.vec, s.vec.length, s.opts⟩) := by
  simp [FileStream.len, FileStream.seek]

/-- **C106 (proved part).** In memory, whatever was done before: `len` tells the number of bytes; `is_empty` answers the
contrary, it is true when there are bytes; neither changes the bytes, but both move the cursor to the end, so that a read
gives nothing and a write adds to what is there. -/
theorem C106_vec_partial (s : VecStream) (l : List UInt8) (h : Holds s l) :
    s.len.1 = l.length ∧ (s.isEmpty.1 = true ↔ l ≠ []) ∧ s.isEmpty.2 = s.len.2 ∧ Holds s.len.2 l ∧
      (∀ n, (s.len.2.read n).1 = []) ∧ ∀ b, ∃ t, s.len.2.write b = .ok (b.length, t) ∧ Holds t (l ++ b) := by
  rw [holds_iff] at h
  subst h
  rw [VecStream.isEmpty, len_eq]
  refine ⟨rfl, by simp [length_pos_iff], rfl, (holds_iff _ _).2 rfl, fun n => ?_, fun b => ?_⟩
  · simp [VecStream.read]
  · refine ⟨⟨s.vec ++ b, s.vec.length + b.length⟩, ?_, (holds_iff _ _).2 rfl⟩
    simp only [VecStream.write, Res.sub, le_refl, if_true, Nat.sub_self, Res.ok_bind]
    show Res.ok _ = _
    congr 3
    unfold VecStream.overwrite VecStream.resizeVec
    cases b with
    | nil => simp
    | cons x b => simp

/-- **C106 (proved part, files).** The same on a file. -/
theorem C106_file_partial (s : FileStream) (hw : s.opts.write = true) :
    ∃ t, s.len = some (s.vec.length, t) ∧ s.isEmpty = some (decide (s.vec ≠ []), t) ∧ t.vec = s.vec ∧
      ∀ b, ∃ t', t.write b = some (b.length, t') ∧ t'.vec = s.vec ++ b := by
  refine ⟨⟨s.vec, s.vec.length, s.opts⟩, file_len_eq s, ?_, rfl, fun b => ?_⟩
  · rw [FileStream.isEmpty, file_len_eq]
    simp [length_pos_iff]
  · refine ⟨_, by simp only [FileStream.write, hw, if_true]; rfl, ?_⟩
    simp [VecStream.overwrite]

/-- One byte is written: the stream is said to be empty if and only if it is not; the cursor has moved. -/
theorem C106_wrong : (vecRun .new [.write [7]]).2.isEmpty.1 = true ∧ (vecRun .new []).2.isEmpty.1 = false ∧
    (vecRun (vecRun .new [.write [7], .seek (.start 0)]).2 [.read 1]).1 = [.bytes [7]] ∧
    (vecRun (vecRun .new [.write [7], .seek (.start 0)]).2.len.2 [.read 1]).1 = [.bytes []] := by decide +kernel

/-- The full statement does not hold. -/
theorem C106_false : ¬ C106_full := by
  intro h
  have := (h [.write [7]] [] [7] ((holds_iff _ _).2 (by decide))).2.1
  revert this
  decide +kernel

/-- A stream that holds something. -/
example : Holds (vecRun .new [.write [1, 2], .seek (.start 1), .write [3]]).2 [1, 3] := (holds_iff _ _).2 (by decide)

end Byoc.StreamLenProps
