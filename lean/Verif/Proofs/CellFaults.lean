import Verif.Model.CellFaults
import Verif.Proofs.Faults

/-!
# `get`, `get_mut`, `take_multiple` and `flush` of `Stream` containers when the operations of their streams fail
-/

namespace Byoc.CellFaults

open Byoc.Faults (Fate Disk Out M bind_ok bind_err bind_panic get_bind upto Sound findKey_upto set_self)
open Byoc.Faults.M
open IOVec

variable {σ : Type}

theorem expect_ok {α : Type} {m : M σ α} {d d' : Disk} {s s' : σ} {a : α} (h : m d s = (.ok a, d', s')) :
    expect m d s = (.ok a, d', s') := by
  unfold expect; simp only [h]

theorem expect_err {α : Type} {m : M σ α} {d d' : Disk} {s s' : σ} (h : m d s = (.err, d', s')) :
    expect m d s = (.panic, d', s') := by
  unfold expect; simp only [h]

theorem expect_panic {α : Type} {m : M σ α} {d d' : Disk} {s s' : σ} (h : m d s = (.panic, d', s')) :
    expect m d s = (.panic, d', s') := by
  unfold expect; simp only [h]

theorem clone_run {α τ : Type} {m : M τ α} {d d' : Disk} {t t' : τ} {o : Out α} (h : m d t = (o, d', t')) (s : σ) :
    clone m t d s = (o, d', s) := by
  unfold clone; simp only [h]

section
variable {O : Type} {cd : Codec O}

theorem seekAside_run (d : Disk) (s : VecStream) : ∃ d', d'.Le d ∧
    ((seekAside d s = (.err, d', s) ∧ Fate.err ∈ d.seeks) ∨ seekAside d s = (.ok (), d', s)) := by
  obtain ⟨sk, rd, wr, rs⟩ := d
  unfold seekAside
  rcases sk with _ | ⟨_ | _ | n, t⟩
  · exact ⟨_, Disk.Le.refl _, Or.inr rfl⟩
  · exact ⟨⟨t, rd, wr, rs⟩, ⟨List.suffix_cons _ _, List.suffix_refl _, List.suffix_refl _, List.suffix_refl _⟩, Or.inr rfl⟩
  · exact ⟨⟨t, rd, wr, rs⟩, ⟨List.suffix_cons _ _, List.suffix_refl _, List.suffix_refl _, List.suffix_refl _⟩,
      Or.inl ⟨rfl, by simp⟩⟩
  · exact ⟨⟨t, rd, wr, rs⟩, ⟨List.suffix_cons _ _, List.suffix_refl _, List.suffix_refl _, List.suffix_refl _⟩, Or.inr rfl⟩

theorem scanMutGo_run (p : O → Bool) (c : Nat) (fuel : Nat) : ∀ (buf : List UInt8) (d : Disk) (s : VecStream) (l : List O),
    d.Reading → iterGo cd c fuel s buf = .ok l →
    ∃ d' s', d'.Le d ∧ ((scanMutGo cd p c fuel buf d s = (.err, d', s') ∧ d.Bad) ∨
      scanMutGo cd p c fuel buf d s = (.ok (upto p l), d', s')) := by
  induction fuel with
  | zero =>
    intro buf d s l _ h
    simp only [iterGo, Res.ok.injEq] at h
    subst h
    exact ⟨d, s, Disk.Le.refl d, Or.inr rfl⟩
  | succ fuel ih =>
    intro buf d s l hd h
    unfold scanMutGo
    obtain ⟨d1, h1, h2 | h2⟩ := Faults.bufRead_run buf c d hd s
    · exact ⟨d1, s, h1, Or.inl ⟨bind_err h2.1, h2.2⟩⟩
    · rw [bind_ok h2]
      unfold iterGo at h
      rcases hb : Byoc.bufRead s buf c with ⟨b, s1, buf1⟩
      rw [hb] at h
      simp only at h ⊢
      by_cases hl : b.length < c
      · rw [if_pos hl] at h ⊢
        simp only [Res.ok.injEq] at h
        subst h
        exact ⟨d1, s1, h1, Or.inr rfl⟩
      · rw [if_neg hl] at h ⊢
        cases hdec : cd.dec b with
        | none =>
          rw [hdec] at h
          exact absurd (show Res.panic = Res.ok l from h) (by simp)
        | some o =>
          rw [hdec] at h
          simp only [Res.unwrap_some, Res.ok_bind] at h ⊢
          cases hi : iterGo cd c fuel s1 buf1 with
          | panic => rw [hi] at h; simp at h
          | ok os =>
            rw [hi] at h
            simp only [Res.ok_bind, Res.pure_eq, Res.ok.injEq] at h
            subst h
            obtain ⟨d2, e1, e2 | e2⟩ := seekAside_run d1 s1
            · exact ⟨d2, s1, e1.trans h1, Or.inl ⟨bind_err e2.1, h1.bad (Or.inl e2.2)⟩⟩
            rw [bind_ok e2]
            have h1 := e1.trans h1
            obtain ⟨d3, e3, e4 | e4⟩ := seekAside_run d2 s1
            · exact ⟨d3, s1, e3.trans h1, Or.inl ⟨bind_err e4.1, h1.bad (Or.inl e4.2)⟩⟩
            rw [bind_ok e4]
            have h1 := e3.trans h1
            unfold upto
            by_cases hp : p o
            · rw [if_pos hp, if_pos hp]
              exact ⟨d3, s1, h1, Or.inr rfl⟩
            · rw [if_neg hp, if_neg hp]
              obtain ⟨d2, s2, g1, g2 | g2⟩ := ih buf1 d3 s1 os (h1.reading hd) hi
              · exact ⟨d2, s2, g1.trans h1, Or.inl ⟨bind_err g2.1, h1.bad g2.2⟩⟩
              · exact ⟨d2, s2, g1.trans h1, Or.inr (bind_ok g2)⟩

theorem scanMut_run {v : IOVec} {l : List O} (h : v.iter cd = .ok l) (p : O → Bool) (d : Disk) (hd : d.Reading) (s : σ) :
    ∃ d', d'.Le d ∧ ((scanMut cd p v d s = (.panic, d', s) ∧ d.Bad) ∨ scanMut cd p v d s = (.ok (upto p l), d', s)) := by
  unfold scanMut clone expect
  obtain ⟨d1, h1, h2 | h2⟩ := Faults.seek_run (.start 0) d v.stream
  · refine ⟨d1, h1, Or.inl ⟨?_, Or.inl h2.2⟩⟩
    simp only [bind_err h2.1]
  · simp only [bind_ok h2]
    obtain ⟨d2, s2, g1, g2 | g2⟩ := scanMutGo_run p v.chunk (v.stream.vec.length + 1) [] d1 _ l (h1.reading hd) h
    · exact ⟨d2, g1.trans h1, Or.inl ⟨by simp only [g2.1], h1.bad g2.2⟩⟩
    · exact ⟨d2, g1.trans h1, Or.inr (by simp only [g2])⟩

/-- A chunk that does not decode. -/
theorem scanGo_stuck (c : Nat) (fuel : Nat) : ∀ (buf : List UInt8) (d : Disk) (s : VecStream),
    d.Reading → iterGo cd c fuel s buf = .panic →
    ∃ d' s', d'.Le d ∧ (Faults.scanGo cd (fun _ => false) c fuel buf d s = (.err, d', s') ∨
      Faults.scanGo cd (fun _ => false) c fuel buf d s = (.panic, d', s')) := by
  induction fuel with
  | zero => intro buf d s _ h; simp [iterGo] at h
  | succ fuel ih =>
    intro buf d s hd h
    unfold Faults.scanGo
    obtain ⟨d1, h1, h2 | h2⟩ := Faults.bufRead_run buf c d hd s
    · exact ⟨d1, s, h1, Or.inl (bind_err h2.1)⟩
    · rw [bind_ok h2]
      unfold iterGo at h
      rcases hb : Byoc.bufRead s buf c with ⟨b, s1, buf1⟩
      rw [hb] at h
      simp only at h ⊢
      by_cases hl : b.length < c
      · rw [if_pos hl] at h
        simp at h
      · rw [if_neg hl] at h ⊢
        cases hdec : cd.dec b with
        | none => exact ⟨d1, s1, h1, Or.inr rfl⟩
        | some o =>
          rw [hdec] at h
          simp only [Res.unwrap_some, Res.ok_bind] at h ⊢
          cases hi : iterGo cd c fuel s1 buf1 with
          | ok os => rw [hi] at h; simp at h
          | panic =>
            rw [if_neg (by simp)]
            obtain ⟨d2, s2, g1, g2 | g2⟩ := ih buf1 d1 s1 (h1.reading hd) hi
            · exact ⟨d2, s2, g1.trans h1, Or.inl (bind_err g2)⟩
            · exact ⟨d2, s2, g1.trans h1, Or.inr (bind_panic g2)⟩

theorem scan_stuck {v : IOVec} (h : v.iter cd = .panic) (d : Disk) (hd : d.Reading) (s : σ) :
    ∃ d', d'.Le d ∧ Faults.scan cd (fun _ => false) v d s = (.panic, d', s) := by
  unfold Faults.scan clone expect
  obtain ⟨d1, h1, h2 | h2⟩ := Faults.seek_run (.start 0) d v.stream
  · exact ⟨d1, h1, by simp only [bind_err h2.1]⟩
  · simp only [bind_ok h2]
    obtain ⟨d2, s2, g1, g2 | g2⟩ := scanGo_stuck v.chunk (v.stream.vec.length + 1) [] d1 _ (h1.reading hd) h
    · exact ⟨d2, g1.trans h1, by simp only [g2]⟩
    · exact ⟨d2, g1.trans h1, by simp only [g2]⟩

/-! ### The write of a cell -/

/-- Writes write at least a byte each. -/
def Steady (d : Disk) : Prop := Fate.err ∉ d.writes ∧ Fate.cut 0 ∉ d.writes

theorem _root_.Byoc.Faults.Disk.Reading.steady {d : Disk} (h : d.Reading) : Steady d :=
  ⟨fun hx => (by simpa using h.2 _ hx), fun hx => (by simpa using h.2 _ hx)⟩

theorem Steady.le {d' d : Disk} (h : Steady d) (hl : d'.Le d) : Steady d' :=
  ⟨fun hx => h.1 (hl.3.subset hx), fun hx => h.2 (hl.3.subset hx)⟩

theorem overwrite_two (v a b : List UInt8) (p : Nat) (hp : p ≤ v.length) :
    VecStream.overwrite (VecStream.overwrite v p a) (p + a.length) b = VecStream.overwrite v p (a ++ b) := by
  unfold VecStream.overwrite
  have h1 : (v.take p ++ a).length = p + a.length := by simp; omega
  have h2 : (v.take p ++ a ++ v.drop (p + a.length)).take (p + a.length) = v.take p ++ a := by
    rw [← h1, List.take_left']; rfl
  have h3 : (v.take p ++ a ++ v.drop (p + a.length)).drop (p + a.length + b.length) =
      v.drop (p + (a ++ b).length) := by
    rw [← List.drop_drop]
    conv_lhs => rw [← h1, List.drop_left' rfl]
    rw [h1, List.drop_drop, List.length_append]
    congr 1
    omega
  rw [h2, h3]
  simp

theorem writeAll_run (fuel : Nat) : ∀ (buf : List UInt8) (d : Disk) (s : VecStream), Steady d → s.pos ≤ s.vec.length →
    buf.length < fuel → ∃ d', d'.Le d ∧
      writeAll fuel buf d s = (.ok (), d', ⟨VecStream.overwrite s.vec s.pos buf, s.pos + buf.length⟩) := by
  induction fuel with
  | zero => intro buf d s _ _ h; omega
  | succ fuel ih =>
    intro buf d s hd hp hf
    unfold writeAll
    by_cases hb : buf = []
    · rw [if_pos hb]
      refine ⟨d, Disk.Le.refl d, ?_⟩
      subst hb
      simp [VecStream.overwrite]
    · rw [if_neg hb]
      have hpos : 0 < buf.length := List.length_pos_of_ne_nil hb
      obtain ⟨d1, m, h1, h2, h3⟩ : ∃ d1 m, d1.Le d ∧ 0 < (buf.take m).length ∧ Faults.write buf d s =
          (.ok (buf.take m).length, d1, ⟨VecStream.overwrite s.vec s.pos (buf.take m), s.pos + (buf.take m).length⟩) := by
        obtain ⟨sk, rd, wr, rs⟩ := d
        rcases wr with _ | ⟨_ | _ | m, t⟩
        · exact ⟨_, buf.length, Disk.Le.refl _, by simpa using hpos, by
            simp [Faults.write, Faults.put, VecStream.write_spec s _ hp]⟩
        · exact ⟨⟨sk, rd, t, rs⟩, buf.length,
            ⟨List.suffix_refl _, List.suffix_refl _, List.suffix_cons _ _, List.suffix_refl _⟩, by simpa using hpos, by
            simp [Faults.write, Faults.put, VecStream.write_spec s _ hp]⟩
        · exact absurd (by simp) hd.1
        · have hm : m ≠ 0 := by rintro rfl; exact hd.2 (by simp)
          exact ⟨⟨sk, rd, t, rs⟩, m,
            ⟨List.suffix_refl _, List.suffix_refl _, List.suffix_cons _ _, List.suffix_refl _⟩, by simp; omega, by
            simp [Faults.write, Faults.put, VecStream.write_spec s _ hp]⟩
      rw [bind_ok h3, if_neg (by omega)]
      have hw : s.pos + (buf.take m).length ≤ (VecStream.overwrite s.vec s.pos (buf.take m)).length := by
        simp only [VecStream.overwrite, List.length_append, List.length_take]; omega
      obtain ⟨d2, g1, g2⟩ := ih (buf.drop (buf.take m).length) d1
        ⟨VecStream.overwrite s.vec s.pos (buf.take m), s.pos + (buf.take m).length⟩ (hd.le h1) hw
        (by rw [List.length_drop]; omega)
      refine ⟨d2, g1.trans h1, ?_⟩
      rw [g2]
      have hcat : buf.take m ++ buf.drop (buf.take m).length = buf := by
        rw [List.length_take]
        rcases Nat.le_total m buf.length with h | h
        · rw [Nat.min_eq_left h, List.take_append_drop]
        · rw [Nat.min_eq_right h, List.take_of_length_le h, List.drop_length, List.append_nil]
      simp only
      rw [overwrite_two _ _ _ _ hp, hcat]
      have := congrArg List.length hcat
      rw [List.length_append] at this
      rw [Nat.add_assoc, this]

theorem dropCell_run {v : IOVec} {l : List O} {m : Nat} (h : Repr cd v l m) (j : Nat) (o : O) (hj : j < l.length)
    (hfit : ∃ b, cd.enc o = some b ∧ b.length ≤ v.chunk) (d : Disk) (hd : Steady d) :
    ∃ d' s', d'.Le d ∧
      ((dropCell cd v.chunk j o d v.stream = (.panic, d', s') ∧ Fate.err ∈ d.seeks ∧ s'.vec = v.stream.vec) ∨
       (dropCell cd v.chunk j o d v.stream = (.ok (), d', s') ∧
          Repr cd ⟨⟨s'.vec, v.stream.pos⟩, v.chunk⟩ (l.set j o) m ∧
          v.writeBack cd j o = .ok ⟨⟨s'.vec, v.stream.pos⟩, v.chunk⟩)) := by
  obtain ⟨v', k1, k2, k3⟩ := h.writeBack j o hj hfit
  have k0 := k1
  obtain ⟨b, hb, hbl⟩ := hfit
  have hvl := h.vec_length
  have hmul : j * v.chunk ≤ l.length * v.chunk := Nat.mul_le_mul_right _ (by omega)
  unfold dropCell
  obtain ⟨d1, h1, h2 | h2⟩ := Faults.seek_run (.start (j * v.chunk)) d v.stream
  · exact ⟨d1, v.stream, h1, Or.inl ⟨bind_panic (expect_err h2.1), h2.2, rfl⟩⟩
  · rw [VecStream.seek_start] at h2
    rw [bind_ok (expect_ok h2)]
    simp only [hb]
    obtain ⟨d2, g1, g2⟩ := writeAll_run (b.length + 1) b d1 ⟨v.stream.vec, min (j * v.chunk) v.stream.vec.length⟩
      (hd.le h1) (by simp) (by omega)
    refine ⟨d2, _, g1.trans h1, Or.inr ⟨expect_ok g2, ?_⟩⟩
    simp only [IOVec.writeBack, VecStream.seek_start, hb, Res.unwrap_some, Res.ok_bind] at k1
    rw [VecStream.write_spec _ _ (by simp)] at k1
    simp only [Res.ok_bind, Res.pure_eq, Res.ok.injEq] at k1
    rw [← k1] at k3 k0
    exact ⟨k3, k0⟩

end

/-! ### The container -/

section
variable {K V : Type} {cd : Codec (K × V)}

open ByteStream (Streams Good Class csz Small stored)

theorem upto_get [DecidableEq K] (k : K) (l : List (K × V)) : ∀ j, findKey l k = some j →
    (upto (fun e => decide (e.1 = k)) l)[j]? = l[j]? := by
  induction l with
  | nil => intro j h; simp [findKey] at h
  | cons e l ih =>
    intro j h
    unfold findKey at h ih
    rw [List.findIdx?_cons] at h
    unfold upto
    by_cases he : e.1 = k
    · simp [he] at h ⊢
      subst h; rfl
    · simp only [he, decide_false, Bool.false_eq_true, if_false, Option.map_eq_some_iff] at h ⊢
      obtain ⟨j', h1, rfl⟩ := h
      simpa using ih j' h1

/-- What an iteration that may fail does. -/
def Scans (cd : Codec (K × V)) (sc : (K × V → Bool) → IOVec → M σ (List (K × V))) : Prop :=
  ∀ (v : IOVec) (l : List (K × V)) (p : K × V → Bool) (d : Disk) (s : σ), v.iter cd = .ok l → d.Reading →
    ∃ d', d'.Le d ∧ ((sc p v d s = (.panic, d', s) ∧ d.Bad) ∨ sc p v d s = (.ok (upto p l), d', s))

theorem lookGo_run [DecidableEq K] {sc : (K × V → Bool) → IOVec → M σ (List (K × V))} (hsc : Scans cd sc) (k : K)
    {i : Nat} {st : List (Option IOVec)} {ls : List (List (K × V))} (h : Streams cd i st ls) :
    ∀ (d : Disk) (s : σ), d.Reading → ∃ d', d'.Le d ∧
      ((lookGo sc k i st d s = (.panic, d', s) ∧ d.Bad) ∨
       (lookGo sc k i st d s = (.ok none, d', s) ∧ ByteStream.findGo cd k i st = .ok none ∧ ¬ HasKey ls.flatten k) ∨
       ∃ a j l e, lookGo sc k i st d s = (.ok (some (i + a, j, e)), d', s) ∧
         ByteStream.findGo cd k i st = .ok (some (i + a, j)) ∧ ls[a]? = some l ∧ l[j]? = some e ∧ e.1 = k) := by
  induction h with
  | nil => intro d s _; exact ⟨d, Disk.Le.refl d, Or.inr (Or.inl ⟨rfl, rfl, by simp [HasKey]⟩)⟩
  | @cons i o st l ls hg _ ih =>
    intro d s hd
    have hit := hg.items
    have hstep : ∀ d1 : Disk, d1.Le d → findKey l k = none → ∃ d', d'.Le d ∧
      ((lookGo sc k (i + 1) st d1 s = (.panic, d', s) ∧ d.Bad) ∨
       (lookGo sc k (i + 1) st d1 s = (.ok none, d', s) ∧ ByteStream.findGo cd k i (o :: st) = .ok none ∧
         ¬ HasKey (l :: ls).flatten k) ∨
       ∃ a j l' e, lookGo sc k (i + 1) st d1 s = (.ok (some (i + a, j, e)), d', s) ∧
         ByteStream.findGo cd k i (o :: st) = .ok (some (i + a, j)) ∧ (l :: ls)[a]? = some l' ∧ l'[j]? = some e ∧
         e.1 = k) := by
      intro d1 h1 hf
      have hn := findKey_none hf
      simp only [ByteStream.findGo, hit, Res.ok_bind, hf, List.flatten_cons]
      obtain ⟨d2, g1, ⟨g2, g3⟩ | ⟨g2, g3, g4⟩ | ⟨a, j, l', e, g2, g3, g4, g5, g6⟩⟩ := ih d1 s (h1.reading hd)
      · exact ⟨d2, g1.trans h1, Or.inl ⟨g2, h1.bad g3⟩⟩
      · refine ⟨d2, g1.trans h1, Or.inr (Or.inl ⟨g2, g3, ?_⟩)⟩
        rintro ⟨v, hv⟩
        rcases List.mem_append.1 hv with hv | hv
        · exact hn ⟨v, hv⟩
        · exact g4 ⟨v, hv⟩
      · rw [Nat.add_right_comm] at g2 g3
        exact ⟨d2, g1.trans h1, Or.inr (Or.inr ⟨a + 1, j, l', e, g2, g3, by simpa using g4, g5, g6⟩)⟩
    cases o with
    | none =>
      simp only [Good] at hg
      subst hg
      exact hstep d (Disk.Le.refl d) rfl
    | some v =>
      unfold lookGo
      obtain ⟨d1, h1, h2 | h2⟩ := hsc v l (fun e => decide (e.1 = k)) d s hit hd
      · exact ⟨d1, h1, Or.inl ⟨bind_panic h2.1, h2.2⟩⟩
      · rw [bind_ok h2, findKey_upto]
        cases hf : findKey l k with
        | none => exact hstep d1 h1 hf
        | some j =>
          obtain ⟨e, e1, e2, -⟩ := findKey_some hf
          simp only [upto_get k l j hf, e1]
          exact ⟨d1, h1, Or.inr (Or.inr ⟨0, j, l, e, rfl, by
            simp only [ByteStream.findGo, hit, Res.ok_bind, hf]; rfl, by simp, e1, e2⟩)⟩

theorem scan_scans : Scans cd (Faults.scan (σ := σ) cd) :=
  fun _ _ p d s h hd => Faults.scan_run h p d hd s

theorem scanMut_scans : Scans cd (scanMut (σ := σ) cd) :=
  fun _ _ p d s h hd => scanMut_run h p d hd s

/-- `get` -/
theorem get_run [DecidableEq K] {s : ByteStream} {ls : List (List (K × V))} (h : Sound cd s ls) (k : K) (d : Disk)
    (hd : d.Reading) : ∃ d', d'.Le d ∧ ((get cd k d s = (.panic, d', s) ∧ d.Bad) ∨
      ∃ o, get cd k d s = (.ok o, d', s) ∧ ByteStream.get cd s k id = .ok (o, s) ∧
        (o = none → ¬ HasKey ls.flatten k) ∧ ∀ v, o = some v → (k, v) ∈ ls.flatten) := by
  unfold get
  rw [get_bind]
  obtain ⟨d1, g1, ⟨g2, g3⟩ | ⟨g2, g3, g4⟩ | ⟨a, j, l, e, g2, g3, g4, g5, g6⟩⟩ :=
    lookGo_run (scan_scans (σ := ByteStream)) k h.1 d s hd
  · exact ⟨d1, g1, Or.inl ⟨bind_panic g2, g3⟩⟩
  · exact ⟨d1, g1, Or.inr ⟨none, bind_ok g2, by simp [ByteStream.get, g3], fun _ => g4, by simp⟩⟩
  · rw [Nat.zero_add] at g2 g3
    obtain ⟨v, k1, k2, -⟩ := ByteStream.items_get h.1 g4 g5
    refine ⟨d1, g1, Or.inr ⟨some e.2, bind_ok g2, by simp [ByteStream.get, g3, k1, ByteStream.items, k2, g5], by simp, ?_⟩⟩
    rintro v ⟨⟩
    subst g6
    exact List.mem_flatten.2 ⟨l, List.mem_of_getElem? g4, List.mem_of_getElem? g5⟩

/-- The element at a place replaced by another. -/
theorem replace_perm {ls : List (List (K × V))} {a j : Nat} {l : List (K × V)} {e e' : K × V} (f2 : ls[a]? = some l)
    (f3 : l[j]? = some e) : ∃ rest, ls.flatten.Perm (e :: rest) ∧ (ls.set a (l.set j e')).flatten.Perm (e' :: rest) := by
  have hlt : j < l.length := (List.getElem?_eq_some_iff.1 f3).1
  have hsplit : l = l.take j ++ e :: l.drop (j + 1) := by
    obtain ⟨hj, hj'⟩ := List.getElem?_eq_some_iff.1 f3
    rw [← hj', List.getElem_cons_drop, List.take_append_drop]
  have hsplit' : l.set j e' = l.take j ++ e' :: l.drop (j + 1) := by
    rw [List.set_eq_take_append_cons_drop, if_pos hlt]
  have hp1 : ([] ++ l).Perm ([e] ++ (l.take j ++ l.drop (j + 1))) := by
    conv_lhs => rw [hsplit]
    perms []
  have hp2 : ([e'] ++ (l.take j ++ l.drop (j + 1))).Perm ([] ++ l.set j e') := by
    rw [hsplit']
    perms []
  have ha : a < ls.length := (List.getElem?_eq_some_iff.1 f2).1
  have e1 := ByteStream.flatten_set_perm f2 hp1
  have e2 := ByteStream.flatten_set_perm (ls := ls.set a (l.take j ++ l.drop (j + 1))) (i := a)
    (by exact List.getElem?_set_self ha) hp2
  simp only [List.set_set] at e2
  exact ⟨_, by simpa using e1, by simpa using e2.symm⟩

/-- `get_mut` and its cell. -/
theorem getMut_run [DecidableEq K] (hsmall : Small cd) {s : ByteStream} {ls : List (List (K × V))} (h : Sound cd s ls)
    (k : K) (f : Option (V → V)) (hf : ∀ g, f = some g → ByteStream.SameClass cd g) (d : Disk) (hd : d.Reading) :
    ∃ d' s' ls', d'.Le d ∧ s'.capacity = s.capacity ∧ Sound cd s' ls' ∧
      ((getMut cd k f d s = (.panic, d', s') ∧ d.Bad ∧ ls' = ls) ∨
       (getMut cd k f d s = (.ok none, d', s') ∧ ¬ HasKey ls.flatten k ∧ ls' = ls ∧
          (∀ g, ByteStream.getMut cd s k g = .ok (none, s')) ∧ ByteStream.get cd s k id = .ok (none, s')) ∨
       ∃ v, getMut cd k f d s = (.ok (some v), d', s') ∧ (k, v) ∈ ls.flatten ∧
         (f = none → ls' = ls ∧ ByteStream.get cd s k id = .ok (some v, s')) ∧
         ∀ g, f = some g → ByteStream.getMut cd s k g = .ok (some v, s') ∧
           total (csz cd) ls'.flatten = total (csz cd) ls.flatten ∧
           ∃ rest, ls.flatten.Perm ((k, v) :: rest) ∧ ls'.flatten.Perm ((k, g v) :: rest)) := by
  unfold getMut
  rw [get_bind]
  obtain ⟨d1, g1, ⟨g2, g3⟩ | ⟨g2, g3, g4⟩ | ⟨a, j, l, e, g2, g3, g4, g5, g6⟩⟩ :=
    lookGo_run (scanMut_scans (σ := ByteStream)) k h.1 d s hd
  · exact ⟨d1, s, ls, g1, rfl, h, Or.inl ⟨bind_panic g2, g3, rfl⟩⟩
  · exact ⟨d1, s, ls, g1, rfl, h, Or.inr (Or.inl ⟨bind_ok g2, g4, rfl, fun g => by simp [ByteStream.getMut, g3], by
      simp [ByteStream.get, g3]⟩)⟩
  · rw [Nat.zero_add] at g2 g3
    rw [bind_ok g2]
    obtain ⟨v, k1, k2, k3, ⟨m, k4⟩, k5⟩ := ByteStream.items_get h.1 g4 g5
    obtain ⟨ek, ev⟩ := e
    simp only at g6
    subst g6
    have hmem : (ek, ev) ∈ ls.flatten := List.mem_flatten.2 ⟨l, List.mem_of_getElem? g4, List.mem_of_getElem? g5⟩
    cases f with
    | none =>
      exact ⟨d1, s, ls, g1, rfl, h, Or.inr (Or.inr ⟨ev, rfl, hmem, fun _ => ⟨rfl, by
        simp [ByteStream.get, g3, k1, ByteStream.items, k2, g5]⟩, by simp⟩)⟩
    | some f =>
      have hc := k5 _ (List.mem_of_getElem? g5)
      obtain ⟨b', hb', hb2⟩ := hf f rfl a ek ev hc
      have hlt : j < l.length := (List.getElem?_eq_some_iff.1 g5).1
      have hble : b'.length ≤ v.chunk := by
        obtain ⟨i', c1, c2, -⟩ := chunkSize_spec b'.length (hsmall _ _ hb')
        rw [hb2] at c1
        injection c1 with c1
        injection c1 with c1 c1'
        rw [k3, c1']; exact c2
      have hd1 := g1.reading hd
      obtain ⟨d2, vs, w1, ⟨w2, w3, w4⟩ | ⟨w2, w3, w4⟩⟩ := dropCell_run k4 j (ek, f ev) hlt ⟨b', hb', hble⟩ d1 hd1.steady
      · refine ⟨d2, s, ls, w1.trans g1, rfl, h, Or.inl ⟨bind_panic ?_, g1.bad (Or.inl w3), rfl⟩⟩
        unfold onCell
        simp only [k1, w2, w4]
        congr 2
        cases s
        simp only at k1 ⊢
        rw [set_self k1]
      · have hset : Sound cd { s with stream := s.stream.set a (some ⟨⟨vs.vec, v.stream.pos⟩, v.chunk⟩) }
            (ls.set a (l.set j (ek, f ev))) := by
          refine ⟨h.1.set a _ _ ?_, by simpa using h.2⟩
          rw [Nat.zero_add]
          refine ⟨k3, ⟨m, w3⟩, ?_⟩
          intro x hx
          rcases List.mem_or_eq_of_mem_set hx with hx | rfl
          · exact k5 x hx
          · exact ⟨b', hb', hb2⟩
        have hcell : onCell a (fun c => dropCell cd c j (ek, f ev)) d1 s =
            (.ok (), d2, { s with stream := s.stream.set a (some ⟨⟨vs.vec, v.stream.pos⟩, v.chunk⟩) }) := by
          unfold onCell
          simp only [k1, w2]
        obtain ⟨rest, r1, r2⟩ := replace_perm (e' := (ek, f ev)) g4 g5
        refine ⟨d2, _, _, w1.trans g1, ?_, hset, Or.inr (Or.inr ⟨ev, bind_ok hcell, hmem, by simp, ?_⟩)⟩
        · rfl
        · rintro g ⟨⟩
          refine ⟨by simp [ByteStream.getMut, g3, k1, k2, g5, w4], ?_, rest, r1, r2⟩
          have t1 := total_perm (csz cd) r1
          have t2 := total_perm (csz cd) r2
          rw [total_cons] at t1 t2
          have : csz cd (ek, f ev) = 2 ^ a := Class.csz ⟨b', hb', hb2⟩
          rw [this] at t2
          rw [hc.csz] at t1
          omega

/-! ### `take_multiple` and `flush` -/

theorem gatherGo_run [LinearOrder K] (c : Nat) (fuel : Nat) : ∀ (buf : List UInt8) (ks : List K) (d : Disk)
    (s : VecStream) (l : List (K × V)), d.Reading → iterGo cd c fuel s buf = .ok l →
    ∃ d' s', d'.Le d ∧ ((gatherGo cd c fuel buf ks d s = (.err, d', s') ∧ d.Bad) ∨
      gatherGo cd c fuel buf ks d s = (.ok (ByteStream.takeMultipleStream l ks), d', s')) := by
  induction fuel with
  | zero =>
    intro buf ks d s l _ h
    simp only [iterGo, Res.ok.injEq] at h
    subst h
    exact ⟨d, s, Disk.Le.refl d, Or.inr rfl⟩
  | succ fuel ih =>
    intro buf ks d s l hd h
    unfold gatherGo
    obtain ⟨d1, h1, h2 | h2⟩ := Faults.bufRead_run buf c d hd s
    · exact ⟨d1, s, h1, Or.inl ⟨bind_err h2.1, h2.2⟩⟩
    · rw [bind_ok h2]
      unfold iterGo at h
      rcases hb : Byoc.bufRead s buf c with ⟨b, s1, buf1⟩
      rw [hb] at h
      simp only at h ⊢
      by_cases hl : b.length < c
      · rw [if_pos hl] at h ⊢
        simp only [Res.ok.injEq] at h
        subst h
        exact ⟨d1, s1, h1, Or.inr rfl⟩
      · rw [if_neg hl] at h ⊢
        cases hdec : cd.dec b with
        | none =>
          rw [hdec] at h
          exact absurd (show Res.panic = Res.ok l from h) (by simp)
        | some o =>
          rw [hdec] at h
          simp only [Res.unwrap_some, Res.ok_bind] at h ⊢
          cases hi : iterGo cd c fuel s1 buf1 with
          | panic => rw [hi] at h; simp at h
          | ok os =>
            rw [hi] at h
            simp only [Res.ok_bind, Res.pure_eq, Res.ok.injEq] at h
            subst h
            unfold ByteStream.takeMultipleStream
            cases hs : bsearch ks o.1 with
            | none =>
              simp only
              obtain ⟨d2, s2, g1, g2 | g2⟩ := ih buf1 ks d1 s1 os (h1.reading hd) hi
              · exact ⟨d2, s2, g1.trans h1, Or.inl ⟨g2.1, h1.bad g2.2⟩⟩
              · exact ⟨d2, s2, g1.trans h1, Or.inr g2⟩
            | some i =>
              simp only
              by_cases he : ks.eraseIdx i = []
              · rw [if_pos he, if_pos he]
                exact ⟨d1, s1, h1, Or.inr rfl⟩
              · rw [if_neg he, if_neg he]
                obtain ⟨d2, s2, g1, g2 | g2⟩ := ih buf1 (ks.eraseIdx i) d1 s1 os (h1.reading hd) hi
                · exact ⟨d2, s2, g1.trans h1, Or.inl ⟨bind_err g2.1, h1.bad g2.2⟩⟩
                · exact ⟨d2, s2, g1.trans h1, Or.inr (bind_ok g2)⟩

theorem gatherAll_run [LinearOrder K] (st : List (Option IOVec)) : ∀ (ks : List K) (d : Disk) (s : σ)
    (r : List (K × V) × List K), d.Reading → ByteStream.takeMultipleGo cd st ks = .ok r → ∃ d', d'.Le d ∧
    ((gatherAll cd st ks d s = (.panic, d', s) ∧ d.Bad) ∨ gatherAll cd st ks d s = (.ok r, d', s)) := by
  induction st with
  | nil =>
    intro ks d s r _ h
    simp only [ByteStream.takeMultipleGo, Res.ok.injEq] at h
    subst h
    exact ⟨d, Disk.Le.refl d, Or.inr rfl⟩
  | cons o st ih =>
    intro ks d s r hd h
    cases o with
    | none =>
      simp only [ByteStream.takeMultipleGo, ByteStream.items, Res.ok_bind, ByteStream.takeMultipleStream] at h
      cases hr : ByteStream.takeMultipleGo cd st ks with
      | panic => rw [hr] at h; exact absurd (show Res.panic = Res.ok r from h) (by simp)
      | ok q =>
        rw [hr] at h
        simp only [Res.ok_bind, Res.pure_eq, Res.ok.injEq, List.nil_append] at h
        subst h
        exact ih ks d s _ hd hr
    | some v =>
      unfold gatherAll
      simp only [ByteStream.takeMultipleGo, ByteStream.items] at h
      cases hi : v.iter cd with
      | panic => rw [hi] at h; exact absurd (show Res.panic = Res.ok r from h) (by simp)
      | ok es =>
        rw [hi] at h
        simp only [Res.ok_bind] at h
        cases hr : ByteStream.takeMultipleGo cd st (ByteStream.takeMultipleStream es ks).2 with
        | panic => rw [hr] at h; exact absurd (show Res.panic = Res.ok r from h) (by simp)
        | ok q =>
          rw [hr] at h
          simp only [Res.ok_bind, Res.pure_eq, Res.ok.injEq] at h
          subst h
          obtain ⟨d1, h1, h2 | h2⟩ := Faults.seek_run (.start 0) d v.stream
          · exact ⟨d1, h1, Or.inl ⟨bind_panic (clone_run (expect_err (bind_err h2.1)) s), Or.inl h2.2⟩⟩
          · obtain ⟨d2, s2, g1, g2 | g2⟩ :=
              gatherGo_run v.chunk (v.stream.vec.length + 1) [] ks d1 _ es (h1.reading hd) hi
            · exact ⟨d2, g1.trans h1, Or.inl ⟨bind_panic (clone_run (expect_err ((bind_ok h2).trans g2.1)) s), h1.bad g2.2⟩⟩
            · rw [bind_ok (clone_run (expect_ok ((bind_ok h2).trans g2)) s)]
              have hd2 := g1.trans h1
              obtain ⟨d3, p1, p2 | p2⟩ := ih _ d2 s q (hd2.reading hd) hr
              · exact ⟨d3, p1.trans hd2, Or.inl ⟨bind_panic p2.1, hd2.bad p2.2⟩⟩
              · exact ⟨d3, p1.trans hd2, Or.inr (bind_ok p2)⟩

theorem emptyGo_run (st : List (Option IOVec)) : ∀ (d : Disk) (s : σ) (out : List (K × V)),
    d.Reading → ByteStream.flushGo cd st = .ok out → ∃ d', d'.Le d ∧
    ((emptyGo cd st d s = (.panic, d', s) ∧ d.Bad) ∨ emptyGo cd st d s = (.ok out, d', s)) := by
  induction st with
  | nil =>
    intro d s out _ h
    simp only [ByteStream.flushGo, Res.ok.injEq] at h
    subst h
    exact ⟨d, Disk.Le.refl d, Or.inr rfl⟩
  | cons o st ih =>
    intro d s out hd h
    cases o with
    | none => exact ih d s out hd h
    | some v =>
      unfold emptyGo
      simp only [ByteStream.flushGo] at h
      cases hi : v.intoIter cd with
      | panic => rw [hi] at h; exact absurd (show Res.panic = Res.ok out from h) (by simp)
      | ok es =>
        rw [hi] at h
        simp only [Res.ok_bind] at h
        cases hr : ByteStream.flushGo cd st with
        | panic => rw [hr] at h; exact absurd (show Res.panic = Res.ok out from h) (by simp)
        | ok rest =>
          rw [hr] at h
          simp only [Res.ok_bind, Res.pure_eq, Res.ok.injEq] at h
          subst h
          obtain ⟨d1, s1, h1, h2 | h2⟩ := Faults.scanGo_run (fun _ => false) v.chunk (v.stream.vec.length + 1) [] d
            v.stream es hd hi
          · exact ⟨d1, h1, Or.inl ⟨bind_panic (clone_run (expect_err h2.1) s), h2.2⟩⟩
          · rw [Faults.upto_false] at h2
            rw [bind_ok (clone_run (expect_ok h2) s)]
            obtain ⟨d2, g1, g2 | g2⟩ := ih d1 s rest (h1.reading hd) hr
            · exact ⟨d2, g1.trans h1, Or.inl ⟨bind_panic g2.1, h1.bad g2.2⟩⟩
            · exact ⟨d2, g1.trans h1, Or.inr (bind_ok g2)⟩

/-- `pop` reads everything: a chunk that does not decode stops it. -/
theorem slotsGo_stuck {R : Type} (rank : V → R) (st : List (Option IOVec)) : ∀ (i : Nat) (d : Disk) (s : σ), d.Reading →
    (∃ v, some v ∈ st ∧ v.iter cd = .panic) → ∃ d', d'.Le d ∧ Faults.slotsGo cd rank i st d s = (.panic, d', s) := by
  induction st with
  | nil => rintro i d s _ ⟨v, hv, -⟩; simp at hv
  | cons o st ih =>
    rintro i d s hd ⟨w, hw, hp⟩
    cases o with
    | none => exact ih (i + 1) d s hd ⟨w, by simpa using hw, hp⟩
    | some v =>
      unfold Faults.slotsGo
      cases hi : v.iter cd with
      | panic =>
        obtain ⟨d1, h1, h2⟩ := scan_stuck hi d hd s
        exact ⟨d1, h1, bind_panic h2⟩
      | ok es =>
        have hw : some w ∈ st := by
          rcases List.mem_cons.1 hw with h | h
          · cases h; rw [hi] at hp; simp at hp
          · exact h
        obtain ⟨d1, h1, h2 | h2⟩ := Faults.scan_run hi (fun _ => false) d hd s
        · exact ⟨d1, h1, bind_panic h2.1⟩
        · rw [bind_ok h2]
          obtain ⟨d2, g1, g2⟩ := ih (i + 1) d1 s (h1.reading hd) ⟨w, hw, hp⟩
          exact ⟨d2, g1.trans h1, bind_panic g2⟩

/-! ### Searching does not write -/

/-- The writes to come do not matter, and stay to come. -/
def Frame {α : Type} (m : M σ α) : Prop :=
  ∀ d s w, m { d with writes := w } s = ((m d s).1, { (m d s).2.1 with writes := w }, (m d s).2.2)

theorem Frame.pure {α : Type} (a : α) : Frame (pure a : M σ α) := fun _ _ _ => rfl
theorem Frame.err {α : Type} : Frame (M.err : M σ α) := fun _ _ _ => rfl
theorem Frame.panic {α : Type} : Frame (M.panic : M σ α) := fun _ _ _ => rfl

theorem Frame.bind {α β : Type} {m : M σ α} {f : α → M σ β} (h : Frame m) (h' : ∀ a, Frame (f a)) : Frame (m >>= f) := by
  intro d s w
  have := h d s w
  rcases hm : m d s with ⟨a | _ | _, d1, s1⟩ <;> rw [hm] at this
  · rw [bind_ok this, bind_ok hm, h' a d1 s1 w]
  · rw [bind_err this, bind_err hm]
  · rw [bind_panic this, bind_panic hm]

theorem Frame.expect {α : Type} {m : M σ α} (h : Frame m) : Frame (expect m) := by
  intro d s w
  have := h d s w
  rcases hm : m d s with ⟨a | _ | _, d1, s1⟩ <;> rw [hm] at this
  · rw [expect_ok this, expect_ok hm]
  · rw [expect_err this, expect_err hm]
  · rw [expect_panic this, expect_panic hm]

theorem Frame.clone {α τ : Type} {m : M τ α} (h : Frame m) (t : τ) : Frame (σ := σ) (clone m t) := by
  intro d s w
  have := h d t w
  rcases hm : m d t with ⟨o, d1, s1⟩
  rw [hm] at this
  rw [clone_run this, clone_run hm]

theorem Frame.seek (w : SeekFrom) : Frame (Faults.seek w) := by
  rintro ⟨sk, rd, wr, rs⟩ s w
  rcases sk with _ | ⟨_ | _ | n, t⟩ <;> rfl

theorem Frame.seekAside : Frame seekAside := by
  rintro ⟨sk, rd, wr, rs⟩ s w
  rcases sk with _ | ⟨_ | _ | n, t⟩ <;> rfl

theorem Frame.read (n : Nat) : Frame (Faults.read n) := by
  rintro ⟨sk, rd, wr, rs⟩ s w
  rcases rd with _ | ⟨_ | _ | n, t⟩ <;> rfl

theorem Frame.bufRead (buf : List UInt8) (n : Nat) : Frame (Faults.bufRead buf n) := by
  unfold Faults.bufRead
  split
  · exact (Frame.read n).bind fun _ => Frame.pure _
  · split
    · exact (Frame.read _).bind fun _ => Frame.pure _
    · exact Frame.pure _

theorem Frame.scanMutGo (p : K × V → Bool) (c fuel : Nat) : ∀ buf, Frame (CellFaults.scanMutGo cd p c fuel buf) := by
  induction fuel with
  | zero => intro buf; exact Frame.pure _
  | succ fuel ih =>
    intro buf
    unfold CellFaults.scanMutGo
    refine (Frame.bufRead buf c).bind fun r => ?_
    simp only
    split
    · exact Frame.pure _
    · split
      · exact Frame.panic
      · refine Frame.seekAside.bind fun _ => Frame.seekAside.bind fun _ => ?_
        split
        · exact Frame.pure _
        · exact (ih _).bind fun _ => Frame.pure _

theorem Frame.lookGo [DecidableEq K] {sc : (K × V → Bool) → IOVec → M σ (List (K × V))} (h : ∀ p v, Frame (sc p v)) (k : K)
    (st : List (Option IOVec)) : ∀ i, Frame (lookGo sc k i st) := by
  induction st with
  | nil => intro i; exact Frame.pure _
  | cons o st ih =>
    intro i
    cases o with
    | none => exact ih (i + 1)
    | some v =>
      unfold CellFaults.lookGo
      refine (h _ v).bind fun es => ?_
      split
      · exact ih (i + 1)
      · split
        · exact Frame.panic
        · exact Frame.pure _

theorem le_quiet {d : Disk} (h : d.Le {}) : d = {} := by
  obtain ⟨a, b, c, e⟩ := d
  obtain ⟨h1, h2, h3, h4⟩ := h
  simp only [List.suffix_nil] at h1 h2 h3 h4
  subst h1 h2 h3 h4
  rfl

/-- The search of `get_mut` when only writes may fail. -/
theorem lookMut_writes [DecidableEq K] {s : ByteStream} {ls : List (List (K × V))} (h : Sound cd s ls) (k : K)
    (hk : HasKey ls.flatten k) (w : List Fate) : ∃ a j l e,
      lookGo (scanMut cd) k 0 s.stream { writes := w } s = (.ok (some (a, j, e)), { writes := w }, s) ∧
      ByteStream.findGo cd k 0 s.stream = .ok (some (a, j)) ∧ ls[a]? = some l ∧ l[j]? = some e ∧ e.1 = k := by
  have hf : Frame (lookGo (scanMut (σ := ByteStream) cd) k 0 s.stream) := Frame.lookGo (fun p v =>
    Frame.clone (Frame.expect ((Frame.seek _).bind fun _ => Frame.scanMutGo p _ _ _)) _) k s.stream 0
  have hq := hf {} s w
  obtain ⟨d1, g1, ⟨g2, g3⟩ | ⟨g2, g3, g4⟩ | ⟨a, j, l, e, g2, g3, g4, g5, g6⟩⟩ :=
    lookGo_run (scanMut_scans (σ := ByteStream)) k h.1 {} s ⟨by simp, by simp, by simp⟩
  · simp [Disk.Bad] at g3
  · exact absurd hk g4
  · rw [Nat.zero_add] at g2 g3
    rw [g2, le_quiet g1] at hq
    exact ⟨a, j, l, e, hq, g3, g4, g5, g6⟩

/-- A write that fails at once, with an error or without writing a byte. -/
theorem dropCell_fails {O : Type} {cd : Codec O} (c j : Nat) (o : O) (b : List UInt8) (hb : cd.enc o = some b) (hne : b ≠ [])
    (x : Fate) (hx : x = .err ∨ x = .cut 0) (w : List Fate) (s : VecStream) :
    ∃ d' s', dropCell cd c j o { writes := x :: w } s = (.panic, d', s') ∧ s'.vec = s.vec := by
  unfold dropCell
  rw [bind_ok (expect_ok (a := (s.seek (.start (j * c))).1) (d' := { writes := x :: w })
    (s' := (s.seek (.start (j * c))).2) rfl)]
  simp only [hb]
  have : writeAll (b.length + 1) b { writes := x :: w } (s.seek (.start (j * c))).2 =
      (.err, { writes := w }, (s.seek (.start (j * c))).2) := by
    unfold writeAll
    rw [if_neg hne]
    rcases hx with rfl | rfl
    · exact bind_err rfl
    · have hw : Faults.write b { writes := .cut 0 :: w } (s.seek (.start (j * c))).2 =
          (.ok 0, { writes := w }, (s.seek (.start (j * c))).2) := by
        rw [VecStream.seek_start]
        simp only [Faults.write, Faults.put, List.take_zero]
        rw [VecStream.write_spec _ _ (by simp)]
        simp [VecStream.overwrite]
      rw [bind_ok hw, if_pos rfl]
      rfl
  exact ⟨_, _, expect_err this, by rw [VecStream.seek_start]⟩

/-! ### What never changes the container -/

/-- The state is left as it was, whatever fails. -/
def Keeps {α : Type} (m : M σ α) : Prop := ∀ d s, (m d s).2.2 = s

theorem Keeps.pure {α : Type} (a : α) : Keeps (pure a : M σ α) := fun _ _ => rfl
theorem Keeps.panic {α : Type} : Keeps (M.panic : M σ α) := fun _ _ => rfl
theorem Keeps.get : Keeps (M.get : M σ σ) := fun _ _ => rfl

theorem Keeps.bind {α β : Type} {m : M σ α} {f : α → M σ β} (h : Keeps m) (h' : ∀ a, Keeps (f a)) : Keeps (m >>= f) := by
  intro d s
  have := h d s
  rcases hm : m d s with ⟨a | _ | _, d1, s1⟩ <;> rw [hm] at this <;> simp only at this <;> subst this
  · rw [bind_ok hm]; exact h' a d1 s1
  · rw [bind_err hm]
  · rw [bind_panic hm]

theorem Keeps.clone {α τ : Type} (m : M τ α) (t : τ) : Keeps (σ := σ) (clone m t) := by
  intro d s
  rcases hm : m d t with ⟨o, d1, s1⟩
  rw [clone_run hm]

theorem Keeps.lookGo [DecidableEq K] {sc : (K × V → Bool) → IOVec → M σ (List (K × V))} (h : ∀ p v, Keeps (sc p v)) (k : K)
    (st : List (Option IOVec)) : ∀ i, Keeps (lookGo sc k i st) := by
  induction st with
  | nil => intro i; exact Keeps.pure _
  | cons o st ih =>
    intro i
    cases o with
    | none => exact ih (i + 1)
    | some v =>
      unfold CellFaults.lookGo
      refine (h _ v).bind fun es => ?_
      split
      · exact ih (i + 1)
      · split
        · exact Keeps.panic
        · exact Keeps.pure _

theorem Keeps.containsGo [DecidableEq K] (k : K) (st : List (Option IOVec)) :
    Keeps (σ := σ) (Faults.containsGo cd k st) := by
  induction st with
  | nil => exact Keeps.pure _
  | cons o st ih =>
    cases o with
    | none => exact ih
    | some v =>
      unfold Faults.containsGo
      refine (Keeps.clone _ _).bind fun es => ?_
      split
      · exact Keeps.pure _
      · exact ih

theorem Keeps.gatherAll [LinearOrder K] (st : List (Option IOVec)) : ∀ ks, Keeps (σ := σ) (gatherAll cd st ks) := by
  induction st with
  | nil => intro ks; exact Keeps.pure _
  | cons o st ih =>
    intro ks
    cases o with
    | none => exact ih ks
    | some v =>
      unfold CellFaults.gatherAll
      exact (Keeps.clone _ _).bind fun r => (ih _).bind fun _ => Keeps.pure _

end
end Byoc.CellFaults
