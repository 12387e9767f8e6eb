import Verif.Proofs.ByteStreamOps

/-!
# Streams: where they are not vectors
-/

namespace Byoc
namespace IOVec

variable {O : Type} {cd : Codec O}

/-- With a non-empty buffer of chunks that does not end on the end of a chunk, the iteration stops
with the buffer. -/
theorem iterGo_short {c : Nat} (l : List O) :
    ∀ (chs : List (List UInt8)) (s : VecStream) (tail : List UInt8) (fuel : Nat),
    List.Forall₂ (IsChunk cd c) l chs → tail ≠ [] → tail.length < c →
    l.length < fuel → iterGo cd c fuel s (chs.flatten ++ tail) = .ok l := by
  induction l with
  | nil =>
    intro chs s tail fuel hf h0 h1 h2
    cases hf
    cases fuel with
    | zero => simp at h2
    | succ fuel =>
      have : (bufRead s ([].flatten ++ tail) c).1 = tail := by
        unfold bufRead
        simp only [List.flatten_nil, List.nil_append, h0, false_and, if_false]
        exact List.take_of_length_le (by omega)
      simp only [iterGo, this, h1, if_true]
  | cons o l ih =>
    intro chs s tail fuel hf h0 h1 h2
    cases hf with
    | @cons _ ch _ chs hch hrest =>
    cases fuel with
    | zero => simp at h2
    | succ fuel =>
      have hl := hch.1
      have : bufRead s ((ch :: chs).flatten ++ tail) c = (ch, s, chs.flatten ++ tail) := by
        unfold bufRead
        have hne : (ch :: chs).flatten ++ tail ≠ [] := by simp [h0]
        simp only [hne, false_and, if_false]
        rw [List.flatten_cons, List.append_assoc, ← hl, List.take_left, List.drop_left]
      simp only [iterGo, this, hl, Nat.lt_irrefl, if_false, hch.dec, Res.unwrap_some, Res.ok_bind]
      rw [ih chs s tail fuel hrest h0 h1 (by simpa using h2)]
      rfl

/-- For any other chunk size, the elements after the first buffer of 8192 bytes are not iterated. -/
theorem Repr.iter_short {v : IOVec} {l : List O} {m : Nat} (h : Repr cd v l m)
    (hg : ¬ GoodChunk v.chunk) (hlong : bufCap < l.length * v.chunk) :
    v.iter cd = .ok (l.take (bufCap / v.chunk)) := by
  obtain ⟨chs, e, f⟩ := h.bytes
  have hlen := forall₂_len f
  have hvl := h.vec_length
  have hpos := h.pos
  unfold GoodChunk at hg
  push Not at hg
  obtain ⟨hg1, hg2⟩ := hg
  set c := v.chunk with hc
  have hdm := Nat.div_add_mod bufCap c
  have hmod : 0 < bufCap % c := Nat.pos_of_ne_zero fun h0 => hg1 (Nat.dvd_of_mod_eq_zero h0)
  have hml := Nat.mod_lt bufCap hpos
  rw [Nat.mul_comm] at hdm
  unfold IOVec.iter
  rw [VecStream.seek_start]
  simp only [Nat.zero_min]
  obtain ⟨p, r1, -⟩ := VecStream.read_spec ⟨v.stream.vec, 0⟩ bufCap (by simp)
  simp only [List.drop_zero] at r1
  have htake : v.stream.vec.take bufCap = (chs.take (bufCap / c)).flatten ++
      (v.stream.vec.take bufCap).drop (bufCap / c * c) := by
    rw [← flatten_take chs hlen, ← e]
    conv_lhs => rw [← List.take_append_drop (bufCap / c * c) (v.stream.vec.take bufCap)]
    rw [List.take_take, Nat.min_eq_left (by omega)]
  have htl : ((v.stream.vec.take bufCap).drop (bufCap / c * c)).length = bufCap % c := by
    rw [List.length_drop, List.length_take, hvl]
    omega
  have hstep : ∀ fuel, iterGo cd c (fuel + 1) ⟨v.stream.vec, 0⟩ [] =
      iterGo cd c (fuel + 1) ⟨v.stream.vec, p⟩ (v.stream.vec.take bufCap) := by
    intro fuel
    have hne : v.stream.vec.take bufCap ≠ [] := by
      intro h0
      have := congrArg List.length h0
      rw [List.length_take, hvl] at this
      simp only [List.length_nil] at this
      omega
    have h1 : bufRead ⟨v.stream.vec, 0⟩ [] c = bufRead ⟨v.stream.vec, p⟩ (v.stream.vec.take bufCap) c := by
      unfold bufRead
      have hnb : ¬ bufCap ≤ c := by omega
      simp only [hnb, and_false, if_false, if_true, r1, hne]
    simp only [iterGo, h1]
  rw [hstep, htake]
  refine iterGo_short (l.take (bufCap / c)) _ _ _ _ (forall₂_take f _) ?_ (by omega) ?_
  · intro h0
    rw [h0] at htl
    simp at htl
    omega
  · exact lt_of_le_of_lt (by simp) h.len_lt

/-- `swap_remove` past the end returns nothing and drops the last element. -/
theorem Repr.swapRemove_past {v : IOVec} {l : List O} {m : Nat} (h : Repr cd v l m) (n : Nat)
    (hn : l.length ≤ n) (hne : l ≠ []) :
    ∃ v' m', v.swapRemove cd n = .ok (none, v') ∧ v'.chunk = v.chunk ∧ Repr cd v' l.dropLast m' := by
  obtain ⟨chs, e, f⟩ := h.bytes
  have hlen := forall₂_len f
  have hvl := h.vec_length
  have hpos := h.pos
  have hl0 : 0 < l.length := List.length_pos_iff.2 hne
  have hcl : chs.length = l.length := f.length_eq.symm
  have h1 := read_chunk f ⟨v.stream.vec, min (n * v.chunk) v.stream.vec.length⟩ e n rfl h.pos
  rw [List.getElem?_eq_none hn] at h1
  obtain ⟨g1, g2⟩ := h1
  have hmul : l.length * v.chunk ≤ n * v.chunk := Nat.mul_le_mul_right _ hn
  have hge : v.chunk ≤ l.length * v.chunk := Nat.le_mul_of_pos_left _ hl0
  simp only [hvl] at g1 g2
  simp only [IOVec.swapRemove, VecStream.seek_start, hvl, g1, List.length_nil, hpos, if_true, Res.ok_bind,
    Res.pure_eq, VecStream.seek_end, g2]
  rw [if_neg (by omega), if_neg (by omega)]
  refine ⟨_, l.length - 1, rfl, rfl, h.pos, ?_, by simp, chs.take (l.length - 1), ?_, ?_⟩
  · simp only [VecStream.resize]
    rw [if_pos (by omega), Nat.sub_mul, Nat.one_mul]
  · simp only [VecStream.resize, VecStream.resizeVec]
    rw [if_pos (by omega), e, ← flatten_take chs hlen, Nat.sub_mul, Nat.one_mul]
  · simp only
    rw [List.dropLast_eq_take]
    exact forall₂_take f _

/-- `swap_remove` on an empty vector returns nothing. -/
theorem Repr.swapRemove_nil {v : IOVec} {m : Nat} (h : Repr cd v [] m) (n : Nat) :
    ∃ v' m', v.swapRemove cd n = .ok (none, v') ∧ v'.chunk = v.chunk ∧ Repr cd v' [] m' := by
  have hvl := h.vec_length
  have hpos := h.pos
  simp only [List.length_nil, Nat.zero_mul, List.length_eq_zero_iff] at hvl
  have hr : (VecStream.read ⟨v.stream.vec, min (n * v.chunk) v.stream.vec.length⟩ v.chunk) =
      ([], ⟨[], 0⟩) := by
    simp [VecStream.read, hvl]
  simp only [IOVec.swapRemove, VecStream.seek_start, hr, List.length_nil, hpos, if_true, Res.ok_bind,
    Res.pure_eq, VecStream.seek_end]
  exact ⟨_, 0, rfl, rfl, h.pos, by simp, by simp, [], rfl, List.Forall₂.nil⟩

end IOVec
end Byoc
