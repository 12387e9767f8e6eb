import Verif.Model.CompressedFaults
import Verif.Proofs.Faults
import Verif.Proofs.Compressed

/-!
# Proofs on `Compressed` containers with failing streams
-/

namespace Byoc.CompressedFaults

open Byoc.Faults Byoc.Faults.M

/-- Seeks and writes do not fail. -/
structure Mild (d : Disk) : Prop where
  seeks : Fate.err ∉ d.seeks
  writes : ∀ f ∈ d.writes, f = .ok

theorem Mild.le {d' d : Disk} (h : Mild d) (hl : d'.Le d) : Mild d' :=
  ⟨fun x => h.1 (hl.1.subset x), fun f x => h.2 f (hl.3.subset x)⟩

variable {K V : Type} {z : Lz4} {cd : VecCodec (K × V)}

theorem seek_start (s : VecStream) : s.seek (.start 0) = (0, { s with pos := 0 }) := by
  unfold VecStream.seek
  simp only
  rw [if_neg (by simp), if_neg (by simp)]
  simp

theorem decode_run (d : Disk) (s : VecStream) (hs : s.pos = 0) : ∃ o d', decode z d s = (o, d', s) ∧ d'.Le d ∧
    ((∃ b, o = .ok b ∧ z.decomp s.vec = some b) ∨ (o = .err ∧ (z.decomp s.vec = none ∨ Fate.err ∈ d.reads))) := by
  obtain ⟨sk, rd, wr, rs⟩ := d
  unfold decode
  rw [hs, List.drop_zero]
  rcases rd with _ | ⟨_ | _ | n, t⟩ <;> simp only
  · cases h : z.decomp s.vec with
    | none => exact ⟨_, _, rfl, Disk.Le.refl _, Or.inr ⟨rfl, Or.inl rfl⟩⟩
    | some b => exact ⟨_, _, rfl, Disk.Le.refl _, Or.inl ⟨b, rfl, rfl⟩⟩
  · cases h : z.decomp s.vec with
    | none => exact ⟨_, _, rfl, ⟨List.suffix_refl _, List.suffix_cons _ _, List.suffix_refl _, List.suffix_refl _⟩, Or.inr ⟨rfl, Or.inl rfl⟩⟩
    | some b => exact ⟨_, _, rfl, ⟨List.suffix_refl _, List.suffix_cons _ _, List.suffix_refl _, List.suffix_refl _⟩, Or.inl ⟨b, rfl, rfl⟩⟩
  · exact ⟨_, _, rfl, ⟨List.suffix_refl _, List.suffix_cons _ _, List.suffix_refl _, List.suffix_refl _⟩, Or.inr ⟨rfl, Or.inr (by simp)⟩⟩
  · cases h : z.decomp s.vec with
    | none => exact ⟨_, _, rfl, ⟨List.suffix_refl _, List.suffix_cons _ _, List.suffix_refl _, List.suffix_refl _⟩, Or.inr ⟨rfl, Or.inl rfl⟩⟩
    | some b => exact ⟨_, _, rfl, ⟨List.suffix_refl _, List.suffix_cons _ _, List.suffix_refl _, List.suffix_refl _⟩, Or.inl ⟨b, rfl, rfl⟩⟩

theorem readBytes_run (d : Disk) (c : Compressed) : ∃ o d', attempt (readBytes z) d c = (.ok o, d', c) ∧ d'.Le d ∧
    (o = c.readBytes z ∨ (o = none ∧ (Fate.err ∈ d.reads ∨ Fate.err ∈ d.seeks))) := by
  unfold attempt readBytes
  rw [get_bind]
  unfold clone
  obtain ⟨d1, h1, ⟨h2, h3⟩ | h2⟩ := seek_run (.start 0) d c.stream
  · rw [bind_err h2]
    exact ⟨none, d1, rfl, h1, Or.inr ⟨rfl, Or.inr h3⟩⟩
  · rw [bind_ok h2, seek_start]
    obtain ⟨o, d2, g1, g2, ⟨b, rfl, g3⟩ | ⟨rfl, g3⟩⟩ := decode_run (z := z) d1 { c.stream with pos := 0 } rfl
    · rw [g1]
      exact ⟨some b, d2, rfl, g2.trans h1, Or.inl g3.symm⟩
    · rw [g1]
      refine ⟨none, d2, rfl, g2.trans h1, ?_⟩
      rcases g3 with g3 | g3
      · exact Or.inl g3.symm
      · exact Or.inr ⟨rfl, Or.inl (h1.2.subset g3)⟩

theorem read_run (d : Disk) (c : Compressed) : ∃ o d', attempt (read z cd) d c = (.ok o, d', c) ∧ d'.Le d ∧
    (o = c.read z cd ∨ (o = none ∧ (Fate.err ∈ d.reads ∨ Fate.err ∈ d.seeks))) := by
  obtain ⟨o, d1, h1, h2, h3⟩ := readBytes_run (z := z) d c
  unfold attempt at h1
  unfold attempt Byoc.CompressedFaults.read Compressed.read
  generalize hm : readBytes z d c = r at h1
  obtain ⟨_ | _ | _, d', c'⟩ := r <;> simp only [Prod.mk.injEq, Out.ok.injEq, reduceCtorEq, false_and] at h1
  · rename_i b
    obtain ⟨rfl, rfl, rfl⟩ := h1
    rw [bind_ok hm]
    rcases h3 with h3 | ⟨h3, -⟩
    · rw [← h3]
      have hp : (if b = [] then some [] else cd.dec b) = parse cd b := rfl
      simp only [hp]
      cases parse cd b with
      | none => exact ⟨none, _, rfl, h2, Or.inl rfl⟩
      | some l => exact ⟨some l, _, rfl, h2, Or.inl rfl⟩
    · simp at h3
  · obtain ⟨rfl, rfl, rfl⟩ := h1
    rw [bind_err hm]
    refine ⟨none, _, rfl, h2, ?_⟩
    rcases h3 with h3 | ⟨-, h3⟩
    · rw [← h3]; exact Or.inl rfl
    · exact Or.inr ⟨rfl, h3⟩

theorem resize_fate (n : Nat) (d : Disk) (s : VecStream) : ∃ d', d'.Le d ∧
    ((resize n d s = (.err, d', s) ∧ Fate.err ∈ d.resizes) ∨ resize n d s = (.ok (), d', s.resize n)) := by
  obtain ⟨sk, rd, wr, rs⟩ := d
  unfold resize
  rcases rs with _ | ⟨_ | _ | n, t⟩
  · exact ⟨_, Disk.Le.refl _, Or.inr rfl⟩
  · exact ⟨⟨sk, rd, wr, t⟩, ⟨List.suffix_refl _, List.suffix_refl _, List.suffix_refl _, List.suffix_cons _ _⟩, Or.inr rfl⟩
  · exact ⟨⟨sk, rd, wr, t⟩, ⟨List.suffix_refl _, List.suffix_refl _, List.suffix_refl _, List.suffix_cons _ _⟩,
      Or.inl ⟨rfl, by simp⟩⟩
  · exact ⟨⟨sk, rd, wr, t⟩, ⟨List.suffix_refl _, List.suffix_refl _, List.suffix_refl _, List.suffix_cons _ _⟩, Or.inr rfl⟩

theorem empty_run (d : Disk) (c : Compressed) : ∃ d', d'.Le d ∧
    ((onStream (resize 0) d c = (.err, d', c) ∧ Fate.err ∈ d.resizes) ∨
      onStream (resize 0) d c = (.ok (), d', { c with stream := c.stream.resize 0 })) := by
  unfold onStream
  obtain ⟨d', h1, ⟨h2, h3⟩ | h2⟩ := resize_fate 0 d c.stream
  · exact ⟨d', h1, Or.inl ⟨by rw [h2], h3⟩⟩
  · exact ⟨d', h1, Or.inr (by rw [h2])⟩

theorem write_empty (buf : List UInt8) :
    (VecStream.mk [] 0).write buf = .ok (buf.length, ⟨buf, buf.length⟩) := by
  simp only [VecStream.write, Res.sub, List.length_nil, Nat.le_refl, if_true, Nat.sub_self,
    Res.ok_bind, Res.pure_eq, Nat.zero_add]
  congr 3
  split
  · unfold VecStream.overwrite
    rw [List.drop_of_length_le]
    · simp
    · simp only [VecStream.resizeVec]; split <;> simp
  · unfold VecStream.overwrite; simp

theorem put_empty (buf : List UInt8) (d : Disk) : put buf d ⟨[], 0⟩ = (.ok buf.length, d, ⟨buf, buf.length⟩) := by
  unfold put; rw [write_empty]

theorem encode_run (buf : List UInt8) (d : Disk) (hd : ∀ f ∈ d.writes, f = .ok) : ∃ d', d'.Le d ∧
    encode buf d ⟨[], 0⟩ = (.ok (), d', ⟨buf, buf.length⟩) := by
  obtain ⟨sk, rd, wr, rs⟩ := d
  unfold encode
  rcases wr with _ | ⟨f, t⟩
  · exact ⟨_, Disk.Le.refl _, by simp only; rw [bind_ok (put_empty buf _)]; rfl⟩
  · obtain rfl := hd f (by simp)
    exact ⟨⟨sk, rd, t, rs⟩, ⟨List.suffix_refl _, List.suffix_refl _, List.suffix_cons _ _, List.suffix_refl _⟩,
      by simp only; rw [bind_ok (put_empty buf _)]; rfl⟩

/-- `write` when seeks and writes do not fail. -/
theorem write_run (l : List (K × V)) (d : Disk) (hd : Mild d) (c : Compressed) : ∃ o d' c',
    write z cd l d c = (o, d', c') ∧ d'.Le d ∧
    ((o = .ok () ∧ c.write z cd l = .ok (some c')) ∨ (o = .err ∧ c' = c ∧ c.write z cd l = .ok none) ∨
      (o = .err ∧ c' = c ∧ Fate.err ∈ d.resizes)) := by
  unfold Byoc.CompressedFaults.write Compressed.write
  by_cases hl : l = []
  · rw [if_pos hl, if_pos hl]
    obtain ⟨d', h1, ⟨h2, h3⟩ | h2⟩ := empty_run d c
    · exact ⟨_, _, _, h2, h1, Or.inr (Or.inr ⟨rfl, rfl, h3⟩)⟩
    · exact ⟨_, _, _, h2, h1, Or.inl ⟨rfl, rfl⟩⟩
  · rw [if_neg hl, if_neg hl]
    cases he : cd.encode l with
    | none => exact ⟨_, _, _, rfl, Disk.Le.refl _, Or.inr (Or.inl ⟨rfl, rfl, rfl⟩)⟩
    | some b =>
      simp only [get_bind]
      by_cases hb : b.length > c.capacity
      · rw [if_pos hb, if_pos hb]
        exact ⟨_, _, _, rfl, Disk.Le.refl _, Or.inr (Or.inl ⟨rfl, rfl, rfl⟩)⟩
      · rw [if_neg hb, if_neg hb]
        obtain ⟨d1, h1, ⟨h2, h3⟩ | h2⟩ := empty_run d c
        · rw [bind_err h2]
          exact ⟨_, _, _, rfl, h1, Or.inr (Or.inr ⟨rfl, rfl, h3⟩)⟩
        · rw [bind_ok h2, Compressed.resize_zero]
          obtain ⟨d2, g1, ⟨g2, g3⟩ | g2⟩ := seek_run (.start 0) d1 ⟨[], 0⟩
          · exact absurd (h1.1.subset g3) hd.1
          · rw [seek_start] at g2
            have g2' : onStream (seek (.start 0)) d1 { c with stream := ⟨[], 0⟩ } =
                (.ok 0, d2, { c with stream := ⟨[], 0⟩ }) := by
              unfold onStream; rw [g2]
            rw [bind_ok g2', seek_start]
            obtain ⟨d3, e1, e2⟩ := encode_run (z.comp b) d2 (hd.le (g1.trans h1)).2
            simp only [write_empty, Res.ok_bind]
            exact ⟨.ok (), d3, _, by unfold onStream; rw [e2], e1.trans (g1.trans h1), Or.inl ⟨rfl, rfl⟩⟩

/-- `write` then `expect`. -/
theorem rewrite_run (l : List (K × V)) (d : Disk) (hd : Mild d) (c : Compressed) : ∃ o d' c',
    expect (write z cd l) d c = (o, d', c') ∧ d'.Le d ∧
    ((o = .ok () ∧ c.rewrite z cd l = .ok c') ∨
      (o = .panic ∧ c' = c ∧ (c.rewrite z cd l = .panic ∨ Fate.err ∈ d.resizes))) := by
  obtain ⟨o, d', c', h1, h2, ⟨rfl, h3⟩ | ⟨rfl, rfl, h3⟩ | ⟨rfl, rfl, h3⟩⟩ := write_run (z := z) (cd := cd) l d hd c
  · refine ⟨.ok (), d', c', by unfold expect; rw [h1], h2, Or.inl ⟨rfl, ?_⟩⟩
    unfold Compressed.rewrite; rw [h3]; rfl
  · refine ⟨.panic, d', c', by unfold expect; rw [h1], h2, Or.inr ⟨rfl, rfl, Or.inl ?_⟩⟩
    unfold Compressed.rewrite; rw [h3]; rfl
  · exact ⟨.panic, d', c', by unfold expect; rw [h1], h2, Or.inr ⟨rfl, rfl, Or.inr h3⟩⟩

end Byoc.CompressedFaults
