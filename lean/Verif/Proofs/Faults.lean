import Verif.Model.Faults
import Verif.Proofs.ByteStreamOps

/-!
# `Stream` containers when the operations of their streams fail
-/

namespace Byoc.Faults

open M IOVec

variable {σ τ α β : Type}

/-! ### Running -/

theorem bind_ok {m : M σ α} {f : α → M σ β} {d d' : Disk} {s s' : σ} {a : α}
    (h : m d s = (.ok a, d', s')) : (m >>= f) d s = f a d' s' := by
  show M.bind m f d s = _
  simp [M.bind, h]

theorem bind_err {m : M σ α} {f : α → M σ β} {d d' : Disk} {s s' : σ}
    (h : m d s = (.err, d', s')) : (m >>= f) d s = (.err, d', s') := by
  show M.bind m f d s = _
  simp [M.bind, h]

theorem bind_panic {m : M σ α} {f : α → M σ β} {d d' : Disk} {s s' : σ}
    (h : m d s = (.panic, d', s')) : (m >>= f) d s = (.panic, d', s') := by
  show M.bind m f d s = _
  simp [M.bind, h]

@[simp] theorem pure_run (a : α) (d : Disk) (s : σ) : (pure a : M σ α) d s = (.ok a, d, s) := rfl
@[simp] theorem get_run (d : Disk) (s : σ) : (M.get : M σ σ) d s = (.ok s, d, s) := rfl
@[simp] theorem panic_run (d : Disk) (s : σ) : (M.panic : M σ α) d s = (.panic, d, s) := rfl
@[simp] theorem err_run (d : Disk) (s : σ) : (M.err : M σ α) d s = (.err, d, s) := rfl

theorem attempt_ok {m : M σ α} {d d' : Disk} {s s' : σ} {a : α} (h : m d s = (.ok a, d', s')) :
    attempt m d s = (.ok (some a), d', s') := by
  unfold attempt; simp only [h]

theorem attempt_err {m : M σ α} {d d' : Disk} {s s' : σ} (h : m d s = (.err, d', s')) :
    attempt m d s = (.ok none, d', s') := by
  unfold attempt; simp only [h]

theorem get_bind (f : σ → M σ β) (d : Disk) (s : σ) : (M.get >>= f) d s = f s d s := bind_ok rfl

theorem pure_bind' (a : α) (f : α → M σ β) (d : Disk) (s : σ) : (pure a >>= f) d s = f a d s := bind_ok rfl

/-! ### Fates -/

/-- What is left of the fates. -/
structure Disk.Le (d' d : Disk) : Prop where
  seeks : d'.seeks <:+ d.seeks
  reads : d'.reads <:+ d.reads
  writes : d'.writes <:+ d.writes
  resizes : d'.resizes <:+ d.resizes

theorem Disk.Le.refl (d : Disk) : d.Le d := ⟨List.suffix_refl _, List.suffix_refl _, List.suffix_refl _, List.suffix_refl _⟩

theorem Disk.Le.trans {a b c : Disk} (h : a.Le b) (h' : b.Le c) : a.Le c :=
  ⟨h.1.trans h'.1, h.2.trans h'.2, h.3.trans h'.3, h.4.trans h'.4⟩

/-- Only seeks and reads fail, and reads are not short. -/
structure Disk.Reading (d : Disk) : Prop where
  reads : ∀ n, Fate.cut n ∉ d.reads
  writes : ∀ f ∈ d.writes, f = .ok
  resizes : ∀ f ∈ d.resizes, f = .ok

/-- A seek or a read fails. -/
def Disk.Bad (d : Disk) : Prop := Fate.err ∈ d.seeks ∨ Fate.err ∈ d.reads

theorem Disk.Le.reading {d' d : Disk} (h : d'.Le d) (hr : d.Reading) : d'.Reading :=
  ⟨fun n hn => hr.1 n (h.2.subset hn), fun f hf => hr.2 f (h.3.subset hf), fun f hf => hr.3 f (h.4.subset hf)⟩

theorem Disk.Le.bad {d' d : Disk} (h : d'.Le d) (hb : d'.Bad) : d.Bad :=
  hb.imp (fun x => h.1.subset x) (fun x => h.2.subset x)

theorem Disk.Le.seekErr {d' d : Disk} (h : d'.Le d) (hb : Fate.err ∈ d'.seeks) : Fate.err ∈ d.seeks := h.1.subset hb

theorem seek_run (w : SeekFrom) (d : Disk) (s : VecStream) : ∃ d', d'.Le d ∧
    ((seek w d s = (.err, d', s) ∧ Fate.err ∈ d.seeks) ∨ seek w d s = (.ok (s.seek w).1, d', (s.seek w).2)) := by
  obtain ⟨sk, rd, wr, rs⟩ := d
  unfold seek
  rcases sk with _ | ⟨_ | _ | n, t⟩
  · exact ⟨_, Disk.Le.refl _, Or.inr rfl⟩
  · exact ⟨⟨t, rd, wr, rs⟩, ⟨List.suffix_cons _ _, List.suffix_refl _, List.suffix_refl _, List.suffix_refl _⟩, Or.inr rfl⟩
  · exact ⟨⟨t, rd, wr, rs⟩, ⟨List.suffix_cons _ _, List.suffix_refl _, List.suffix_refl _, List.suffix_refl _⟩,
      Or.inl ⟨rfl, by simp⟩⟩
  · exact ⟨⟨t, rd, wr, rs⟩, ⟨List.suffix_cons _ _, List.suffix_refl _, List.suffix_refl _, List.suffix_refl _⟩, Or.inr rfl⟩

theorem read_run (n : Nat) (d : Disk) (hd : d.Reading) (s : VecStream) : ∃ d', d'.Le d ∧
    ((read n d s = (.err, d', s) ∧ Fate.err ∈ d.reads) ∨ read n d s = (.ok (s.read n).1, d', (s.read n).2)) := by
  have := hd.1
  obtain ⟨sk, rd, wr, rs⟩ := d
  unfold read
  rcases rd with _ | ⟨_ | _ | m, t⟩
  · exact ⟨_, Disk.Le.refl _, Or.inr rfl⟩
  · exact ⟨⟨sk, t, wr, rs⟩, ⟨List.suffix_refl _, List.suffix_cons _ _, List.suffix_refl _, List.suffix_refl _⟩, Or.inr rfl⟩
  · exact ⟨⟨sk, t, wr, rs⟩, ⟨List.suffix_refl _, List.suffix_cons _ _, List.suffix_refl _, List.suffix_refl _⟩,
      Or.inl ⟨rfl, by simp⟩⟩
  · exact absurd (by simp) (this m)

theorem write_run (buf : List UInt8) (d : Disk) (hd : d.Reading) (s s' : VecStream) (n : Nat)
    (h : s.write buf = .ok (n, s')) : ∃ d', d'.Le d ∧ write buf d s = (.ok n, d', s') := by
  have := hd.2
  obtain ⟨sk, rd, wr, rs⟩ := d
  unfold write
  rcases wr with _ | ⟨f, t⟩
  · exact ⟨_, Disk.Le.refl _, by simp [put, h]⟩
  · obtain rfl := this f (by simp)
    exact ⟨⟨sk, rd, t, rs⟩, ⟨List.suffix_refl _, List.suffix_refl _, List.suffix_cons _ _, List.suffix_refl _⟩, by simp [put, h]⟩

theorem resize_run (n : Nat) (d : Disk) (hd : d.Reading) (s : VecStream) :
    ∃ d', d'.Le d ∧ resize n d s = (.ok (), d', s.resize n) := by
  have := hd.3
  obtain ⟨sk, rd, wr, rs⟩ := d
  unfold resize
  rcases rs with _ | ⟨f, t⟩
  · exact ⟨_, Disk.Le.refl _, rfl⟩
  · obtain rfl := this f (by simp)
    exact ⟨⟨sk, rd, wr, t⟩, ⟨List.suffix_refl _, List.suffix_refl _, List.suffix_refl _, List.suffix_cons _ _⟩, rfl⟩

/-! ### Iteration -/

/-- The elements up to the first that satisfies `p`. -/
def upto {O : Type} (p : O → Bool) : List O → List O
  | [] => []
  | o :: l => if p o then [o] else o :: upto p l

theorem upto_false {O : Type} (l : List O) : upto (fun _ => false) l = l := by
  induction l with
  | nil => rfl
  | cons o l ih => simp [upto, ih]

theorem upto_any {O : Type} (p : O → Bool) (l : List O) : (upto p l).any p = l.any p := by
  induction l with
  | nil => rfl
  | cons o l ih =>
    unfold upto
    by_cases h : p o
    · simp [h]
    · simp [h, ih]

section
variable {O : Type} {cd : Codec O}

theorem bufRead_run (buf : List UInt8) (n : Nat) (d : Disk) (hd : d.Reading) (s : VecStream) :
    ∃ d', d'.Le d ∧ ((bufRead buf n d s = (.err, d', s) ∧ d.Bad) ∨
      bufRead buf n d s = (.ok ((Byoc.bufRead s buf n).1, (Byoc.bufRead s buf n).2.2), d', (Byoc.bufRead s buf n).2.1)) := by
  unfold bufRead Byoc.bufRead
  by_cases h : buf = [] ∧ bufCap ≤ n
  · rw [if_pos h, if_pos h]
    obtain ⟨d', h1, h2 | h2⟩ := read_run n d hd s
    · exact ⟨d', h1, Or.inl ⟨bind_err h2.1, Or.inr h2.2⟩⟩
    · exact ⟨d', h1, Or.inr (bind_ok h2)⟩
  · rw [if_neg h, if_neg h]
    by_cases hb : buf = []
    · rw [if_pos hb]
      obtain ⟨d', h1, h2 | h2⟩ := read_run bufCap d hd s
      · exact ⟨d', h1, Or.inl ⟨bind_err h2.1, Or.inr h2.2⟩⟩
      · exact ⟨d', h1, Or.inr ((bind_ok h2).trans (by simp [hb]))⟩
    · rw [if_neg hb]
      exact ⟨d, Disk.Le.refl d, Or.inr (by simp [hb])⟩

theorem scanGo_run (p : O → Bool) (c : Nat) (fuel : Nat) : ∀ (buf : List UInt8) (d : Disk) (s : VecStream) (l : List O),
    d.Reading → iterGo cd c fuel s buf = .ok l →
    ∃ d' s', d'.Le d ∧ ((scanGo cd p c fuel buf d s = (.err, d', s') ∧ d.Bad) ∨
      scanGo cd p c fuel buf d s = (.ok (upto p l), d', s')) := by
  induction fuel with
  | zero =>
    intro buf d s l _ h
    simp only [iterGo, Res.ok.injEq] at h
    subst h
    exact ⟨d, s, Disk.Le.refl d, Or.inr rfl⟩
  | succ fuel ih =>
    intro buf d s l hd h
    unfold scanGo
    obtain ⟨d1, h1, h2 | h2⟩ := bufRead_run buf c d hd s
    · exact ⟨d1, s, h1, Or.inl ⟨bind_err h2.1, h2.2⟩⟩
    · rw [bind_ok h2]
      unfold iterGo at h
      rcases hb : Byoc.bufRead s buf c with ⟨b, s1, buf1⟩
      rw [hb] at h
      simp only at h ⊢
      by_cases hl : b.length < c
      · rw [if_pos hl] at h ⊢
        simp only [Res.ok.injEq] at h
        subst h
        exact ⟨d1, s1, h1, Or.inr rfl⟩
      · rw [if_neg hl] at h ⊢
        cases hdec : cd.dec b with
        | none =>
          rw [hdec] at h
          exact absurd (show Res.panic = Res.ok l from h) (by simp)
        | some o =>
          rw [hdec] at h
          simp only [Res.unwrap_some, Res.ok_bind] at h ⊢
          cases hi : iterGo cd c fuel s1 buf1 with
          | panic => rw [hi] at h; simp at h
          | ok os =>
            rw [hi] at h
            simp only [Res.ok_bind, Res.pure_eq, Res.ok.injEq] at h
            subst h
            unfold upto
            by_cases hp : p o
            · rw [if_pos hp, if_pos hp]
              exact ⟨d1, s1, h1, Or.inr rfl⟩
            · rw [if_neg hp, if_neg hp]
              obtain ⟨d2, s2, g1, g2 | g2⟩ := ih buf1 d1 s1 os (h1.reading hd) hi
              · exact ⟨d2, s2, g1.trans h1, Or.inl ⟨bind_err g2.1, h1.bad g2.2⟩⟩
              · exact ⟨d2, s2, g1.trans h1, Or.inr (bind_ok g2)⟩

theorem scan_run {v : IOVec} {l : List O} (h : v.iter cd = .ok l) (p : O → Bool) (d : Disk) (hd : d.Reading) (s : σ) :
    ∃ d', d'.Le d ∧ ((scan cd p v d s = (.panic, d', s) ∧ d.Bad) ∨ scan cd p v d s = (.ok (upto p l), d', s)) := by
  unfold scan clone expect
  obtain ⟨d1, h1, h2 | h2⟩ := seek_run (.start 0) d v.stream
  · refine ⟨d1, h1, Or.inl ⟨?_, Or.inl h2.2⟩⟩
    simp only [bind_err h2.1]
  · simp only [bind_ok h2]
    obtain ⟨d2, s2, g1, g2 | g2⟩ := scanGo_run p v.chunk (v.stream.vec.length + 1) [] d1 _ l (h1.reading hd) h
    · exact ⟨d2, g1.trans h1, Or.inl ⟨by simp only [g2.1], h1.bad g2.2⟩⟩
    · exact ⟨d2, g1.trans h1, Or.inr (by simp only [g2])⟩

/-! ### Appending and removing -/

/-- The same bytes, and the cursor at the start of a chunk. -/
theorem Repr.at {v : IOVec} {l : List O} {m : Nat} (h : Repr cd v l m) (s : VecStream) (j : Nat)
    (hv : s.vec = v.stream.vec) (hp : s.pos = j * v.chunk) (hj : j ≤ l.length) : Repr cd ⟨s, v.chunk⟩ l j :=
  ⟨h.pos, hp, hj, by obtain ⟨chs, e, f⟩ := h.bytes; exact ⟨chs, hv.trans e, f⟩⟩

theorem drain_run (fuel : Nat) (buf : List UInt8) (d : Disk) (hd : d.Reading) (s s' : VecStream)
    (h : s.write buf = .ok (buf.length, s')) (hb : buf ≠ []) (hf : 1 < fuel) :
    ∃ d', d'.Le d ∧ drain fuel buf d s = (.ok (), d', s') := by
  obtain ⟨fuel, rfl⟩ : ∃ n, fuel = n + 2 := ⟨fuel - 2, by omega⟩
  obtain ⟨d1, h1, h2⟩ := write_run buf d hd s s' _ h
  have ha : attempt (write buf) d s = (.ok (some buf.length), d1, s') := by unfold attempt; simp only [h2]
  refine ⟨d1, h1, ?_⟩
  unfold drain
  rw [if_neg hb, bind_ok ha]
  simp only
  rw [if_neg (by simpa using hb), List.drop_length]
  unfold drain
  rw [if_pos rfl]; rfl

theorem append_run {v : IOVec} {l : List O} {m : Nat} (h : Repr cd v l m) (o : O)
    (hfit : ∃ b, cd.enc o = some b ∧ b.length ≤ v.chunk) (d : Disk) (hd : d.Reading) :
    ∃ d' s', d'.Le d ∧
      ((append cd v.chunk o d v.stream = (.ok .kept, d', v.stream) ∧ Fate.err ∈ d.seeks) ∨
       (append cd v.chunk o d v.stream = (.ok .done, d', s') ∧ Repr cd ⟨s', v.chunk⟩ (l ++ [o]) (l.length + 1) ∧
          v.append cd [o] = .ok (true, ⟨s', v.chunk⟩))) := by
  obtain ⟨v', k1, k2, k3⟩ := h.append_one o hfit
  have k0 := k1
  obtain ⟨b, hb, hbl⟩ := hfit
  obtain ⟨ch, hch⟩ := chunkOf_some hb hbl
  have hc := chunkOf_isChunk hch
  have hw := VecStream.write_spec ⟨v.stream.vec, v.stream.vec.length⟩ ch (le_refl _)
  rw [IOVec.append] at k1
  simp only [VecStream.seek_end, List.reverse_cons, List.reverse_nil, List.nil_append, appendLoop, hch, hw,
    Res.ok_bind, Res.pure_eq, Res.ok.injEq, Prod.mk.injEq, true_and] at k1
  rw [← k1] at k3 k0
  unfold append
  obtain ⟨d1, h1, h2 | h2⟩ := seek_run (.end 0) d v.stream
  · have ha : attempt (seek (.end 0)) d v.stream = (.ok none, d1, v.stream) := by unfold attempt; simp only [h2.1]
    exact ⟨d1, v.stream, h1, Or.inl ⟨bind_ok ha, h2.2⟩⟩
  · rw [VecStream.seek_end] at h2
    have ha : attempt (seek (.end 0)) d v.stream =
        (.ok (some v.stream.vec.length), d1, ⟨v.stream.vec, v.stream.vec.length⟩) := by unfold attempt; simp only [h2]
    rw [bind_ok ha]
    simp only [hch]
    have hne : ch ≠ [] := by
      intro h0
      have := hc.1
      rw [h0] at this
      have := h.pos
      simp at *; omega
    by_cases hsm : ch.length < bufCap
    · rw [if_pos hsm]
      obtain ⟨d2, g1, g2⟩ := drain_run (ch.length + 1) ch d1 (h1.reading hd) _ _ hw hne (by
        have := List.length_pos_of_ne_nil hne
        omega)
      exact ⟨d2, _, g1.trans h1, Or.inr ⟨bind_ok g2, k3, k0⟩⟩
    · rw [if_neg hsm]
      obtain ⟨d2, g1, g2⟩ := write_run ch d1 (h1.reading hd) _ _ _ hw
      have ha := attempt_ok g2
      exact ⟨d2, _, g1.trans h1, Or.inr ⟨bind_ok ha, k3, k0⟩⟩

theorem moveLast_run {v : IOVec} {l : List O} {m : Nat} (h : Repr cd v l m) (n : Nat) (hn : n < l.length) (d : Disk)
    (hd : d.Reading) (s1 : VecStream) (hs1 : s1 = ⟨v.stream.vec, l.length * v.chunk⟩) :
    ∃ d' s', d'.Le d ∧
      ((moveLast v.chunk (n * v.chunk) (l.length * v.chunk) d s1 = (.err, d', s') ∧ d.Bad ∧
          ∃ m', Repr cd ⟨s', v.chunk⟩ l m') ∨
       (moveLast v.chunk (n * v.chunk) (l.length * v.chunk) d s1 = (.ok (), d', s') ∧
          ∃ m', Repr cd ⟨s'.resize (l.length * v.chunk - v.chunk), v.chunk⟩ (Byoc.swapRemove l n) m' ∧
          v.swapRemove cd n = .ok (l[n]?, ⟨s'.resize (l.length * v.chunk - v.chunk), v.chunk⟩))) := by
  obtain ⟨o, ho⟩ : ∃ o, l[n]? = some o := ⟨_, List.getElem?_eq_getElem hn⟩
  obtain ⟨v', m', k1, k2, k3⟩ := h.swapRemove n o ho
  have k0 := k1
  rw [ho]
  obtain ⟨chs, e, f⟩ := h.bytes
  have hvl := h.vec_length
  have h1 := read_chunk f ⟨v.stream.vec, min (n * v.chunk) v.stream.vec.length⟩ e n rfl h.pos
  rw [ho] at h1
  obtain ⟨ch, g1, g2, g3⟩ := h1
  simp only [hvl] at g3
  have hge : v.chunk ≤ l.length * v.chunk := Nat.le_mul_of_pos_left _ (by omega)
  have hsub : l.length * v.chunk - v.chunk = (l.length - 1) * v.chunk := by rw [Nat.sub_mul, Nat.one_mul]
  simp only [IOVec.swapRemove, VecStream.seek_start, VecStream.seek_end, g3, g2.1, Nat.lt_irrefl,
    if_false, g2.dec, Res.unwrap_some, Res.ok_bind, Res.pure_eq, hvl, hsub] at k1
  rw [if_neg (by omega)] at k1
  unfold moveLast
  rw [hsub]
  by_cases hlt : n * v.chunk < (l.length - 1) * v.chunk
  · rw [if_pos hlt] at k1 ⊢
    have hlt2 : n < l.length - 1 := Nat.lt_of_mul_lt_mul_right hlt
    obtain ⟨lo, hlo⟩ : ∃ lo, l[l.length - 1]? = some lo := ⟨_, List.getElem?_eq_getElem (by omega)⟩
    have h2 := read_chunk f
      ⟨v.stream.vec, min ((l.length - 1) * v.chunk) (l.length * v.chunk)⟩ e (l.length - 1)
      (by simp [hvl]) h.pos
    rw [hlo] at h2
    obtain ⟨lch, j1, j2, j3⟩ := h2
    simp only at j3
    simp only [j3, j2.1, Nat.lt_irrefl, if_false] at k1
    have hmin : min (n * v.chunk) (l.length * v.chunk) = n * v.chunk :=
      Nat.min_eq_left (Nat.mul_le_mul_right _ (by omega))
    have hmin' : min ((l.length - 1) * v.chunk) (l.length * v.chunk) = (l.length - 1) * v.chunk :=
      Nat.min_eq_left (Nat.mul_le_mul_right _ (by omega))
    have hl1 : l.length - 1 + 1 = l.length := by omega
    have hw := VecStream.write_spec ⟨v.stream.vec, min (n * v.chunk) (l.length * v.chunk)⟩ lch
      (by simp only [hvl]; omega)
    rw [VecStream.write_spec _ _ (by simp only [hvl]; omega)] at k1
    simp only [Res.ok_bind] at k1
    subst hs1
    obtain ⟨d1, p1, p2 | p2⟩ := seek_run (.start ((l.length - 1) * v.chunk)) d ⟨v.stream.vec, l.length * v.chunk⟩
    · exact ⟨d1, _, p1, Or.inl ⟨bind_err p2.1, Or.inl p2.2, l.length, Repr.at h _ _ rfl rfl (le_refl _)⟩⟩
    rw [VecStream.seek_start] at p2
    simp only [hvl] at p2
    rw [bind_ok p2]
    obtain ⟨d2, q1, q2 | q2⟩ := read_run v.chunk d1 (p1.reading hd)
      ⟨v.stream.vec, min ((l.length - 1) * v.chunk) (l.length * v.chunk)⟩
    · exact ⟨d2, _, q1.trans p1, Or.inl ⟨bind_err q2.1, p1.bad (Or.inr q2.2), l.length - 1,
        Repr.at h _ _ rfl hmin' (by omega)⟩⟩
    rw [j3] at q2
    rw [bind_ok q2, if_neg (by rw [j2.1]; omega)]
    obtain ⟨d3, r1, r2 | r2⟩ := seek_run (.start (n * v.chunk)) d2 ⟨v.stream.vec, (l.length - 1 + 1) * v.chunk⟩
    · exact ⟨d3, _, r1.trans (q1.trans p1), Or.inl ⟨bind_err r2.1, (q1.trans p1).bad (Or.inl r2.2), l.length,
        Repr.at h _ _ rfl (by rw [hl1]) (le_refl _)⟩⟩
    rw [VecStream.seek_start] at r2
    simp only [hvl] at r2
    rw [bind_ok r2]
    obtain ⟨d4, t1, t2⟩ := write_run lch d3 (r1.reading (q1.reading (p1.reading hd))) _ _ _ hw
    refine ⟨d4, _, t1.trans (r1.trans (q1.trans p1)), Or.inr ⟨(bind_ok t2).trans rfl, m', ?_⟩⟩
    simp only [Res.ok.injEq, Prod.mk.injEq, true_and] at k1
    rw [← k1] at k3 k0
    rw [hvl] at k3 k0
    exact ⟨k3, k0⟩
  · rw [if_neg hlt] at k1 ⊢
    simp only [Res.ok.injEq, Prod.mk.injEq, true_and] at k1
    rw [← k1] at k3 k0
    subst hs1
    exact ⟨d, _, Disk.Le.refl d, Or.inr ⟨rfl, m', k3, k0⟩⟩

theorem swapRemove_run {v : IOVec} {l : List O} {m : Nat} (h : Repr cd v l m) (n : Nat) (o : O)
    (hn : l[n]? = some o) (d : Disk) (hd : d.Reading) :
    ∃ d' s', d'.Le d ∧
      ((swapRemove cd v.chunk n d v.stream = (.err, d', s') ∧ d.Bad ∧ ∃ m', Repr cd ⟨s', v.chunk⟩ l m') ∨
       (swapRemove cd v.chunk n d v.stream = (.ok (some o), d', s') ∧
          ∃ m', Repr cd ⟨s', v.chunk⟩ (Byoc.swapRemove l n) m' ∧
            v.swapRemove cd n = .ok (some o, ⟨s', v.chunk⟩))) := by
  have hlt : n < l.length := (List.getElem?_eq_some_iff.1 hn).1
  obtain ⟨chs, e, f⟩ := h.bytes
  have hvl := h.vec_length
  have h1 := read_chunk f ⟨v.stream.vec, min (n * v.chunk) v.stream.vec.length⟩ e n rfl h.pos
  rw [hn] at h1
  obtain ⟨ch, g1, g2, g3⟩ := h1
  simp only [hvl] at g3
  have hge : v.chunk ≤ l.length * v.chunk := Nat.le_mul_of_pos_left _ (by omega)
  have hmin : min (n * v.chunk) (l.length * v.chunk) = n * v.chunk :=
    Nat.min_eq_left (Nat.mul_le_mul_right _ (by omega))
  unfold swapRemove
  obtain ⟨d1, p1, p2 | p2⟩ := seek_run (.start (n * v.chunk)) d v.stream
  · exact ⟨d1, _, p1, Or.inl ⟨bind_err p2.1, Or.inl p2.2, m, h⟩⟩
  rw [VecStream.seek_start] at p2
  simp only [hvl] at p2
  rw [bind_ok p2]
  obtain ⟨d2, q1, q2 | q2⟩ := read_run v.chunk d1 (p1.reading hd) ⟨v.stream.vec, min (n * v.chunk) (l.length * v.chunk)⟩
  · exact ⟨d2, _, q1.trans p1, Or.inl ⟨bind_err q2.1, p1.bad (Or.inr q2.2), n, Repr.at h _ _ rfl hmin (by omega)⟩⟩
  rw [g3] at q2
  rw [bind_ok q2]
  have hit : itemOf cd v.chunk ch d2 ⟨v.stream.vec, (n + 1) * v.chunk⟩ =
      (.ok (some o), d2, ⟨v.stream.vec, (n + 1) * v.chunk⟩) := by
    unfold itemOf
    rw [if_neg (by rw [g2.1]; omega), g2.dec]; rfl
  rw [bind_ok hit]
  have hd2 := q1.trans p1
  obtain ⟨d3, r1, r2 | r2⟩ := seek_run (.end 0) d2 ⟨v.stream.vec, (n + 1) * v.chunk⟩
  · exact ⟨d3, _, r1.trans hd2, Or.inl ⟨bind_err r2.1, hd2.bad (Or.inl r2.2), n + 1, Repr.at h _ _ rfl rfl (by omega)⟩⟩
  rw [VecStream.seek_end] at r2
  simp only [hvl] at r2
  rw [bind_ok r2, if_neg (by omega)]
  have hd3 := r1.trans hd2
  obtain ⟨d4, s4, t1, ⟨t2, t3, t4⟩ | ⟨t2, m', t3, t5⟩⟩ := moveLast_run h n hlt d3 (hd3.reading hd) _ rfl
  · exact ⟨d4, s4, t1.trans hd3, Or.inl ⟨bind_err t2, hd3.bad t3, t4⟩⟩
  rw [bind_ok t2]
  have hd4 := t1.trans hd3
  obtain ⟨d5, u1, u2⟩ := resize_run (l.length * v.chunk - v.chunk) d4 (hd4.reading hd) s4
  have hu : expect (resize (l.length * v.chunk - v.chunk)) d4 s4 = (.ok (), d5, s4.resize (l.length * v.chunk - v.chunk)) := by
    unfold expect; simp only [u2]
  exact ⟨d5, _, u1.trans hd4, Or.inr ⟨bind_ok hu, m', t3, by rw [← hn]; exact t5⟩⟩

end

/-! ### The container -/

section
variable {K V : Type} {cd : Codec (K × V)}

open ByteStream (Streams Good Class csz Small stored at' plt place)

/-- The size returned, when seeks may fail. -/
theorem sizeGo_run (st : List (Option IOVec)) : ∀ (d : Disk) (s : σ), ∃ d' n, d'.Le d ∧
    sizeGo st d s = (.ok n, d', s) ∧ n ≤ (st.map ByteStream.sizeOpt).sum ∧
    (Fate.err ∉ d.seeks → n = (st.map ByteStream.sizeOpt).sum) := by
  induction st with
  | nil => intro d s; exact ⟨d, 0, Disk.Le.refl d, rfl, by simp, by simp⟩
  | cons o st ih =>
    intro d s
    cases o with
    | none =>
      obtain ⟨d', n, h1, h2, h3, h4⟩ := ih d s
      exact ⟨d', n, h1, h2, by simpa [ByteStream.sizeOpt] using h3, by simpa [ByteStream.sizeOpt] using h4⟩
    | some v =>
      unfold sizeGo
      obtain ⟨d1, h1, h2 | h2⟩ := seek_run (.end 0) d v.stream
      · have hc : clone (seek (.end 0)) v.stream d s = (.err, d1, s) := by unfold clone; simp only [h2.1]
        obtain ⟨d', n, g1, g2, g3, -⟩ := ih d1 s
        refine ⟨d', 0 + n, g1.trans h1, ?_, by simp; omega, fun h => absurd h2.2 h⟩
        rw [bind_ok (attempt_err hc)]
        exact bind_ok g2
      · have hc : clone (seek (.end 0)) v.stream d s = (.ok (v.stream.seek (.end 0)).1, d1, s) := by
          unfold clone; simp only [h2]
        obtain ⟨d', n, g1, g2, g3, g4⟩ := ih d1 s
        refine ⟨d', v.size + n, g1.trans h1, ?_, by simp [ByteStream.sizeOpt]; omega, fun h => ?_⟩
        · rw [bind_ok (attempt_ok hc)]
          exact bind_ok g2
        · simp [ByteStream.sizeOpt, g4 (fun h' => h (h1.seekErr h'))]

theorem containsGo_run [DecidableEq K] (k : K) (st : List (Option IOVec)) : ∀ (d : Disk) (s : σ) (b : Bool),
    d.Reading → ByteStream.containsGo cd k st = .ok b → ∃ d', d'.Le d ∧
    ((containsGo cd k st d s = (.panic, d', s) ∧ d.Bad) ∨ containsGo cd k st d s = (.ok b, d', s)) := by
  induction st with
  | nil =>
    intro d s b _ h
    simp only [ByteStream.containsGo, Res.ok.injEq] at h
    subst h
    exact ⟨d, Disk.Le.refl d, Or.inr rfl⟩
  | cons o st ih =>
    intro d s b hd h
    cases o with
    | none =>
      simp only [ByteStream.containsGo, ByteStream.items, Res.ok_bind, List.any_nil] at h
      exact ih d s b hd (by simpa using h)
    | some v =>
      unfold containsGo
      simp only [ByteStream.containsGo, ByteStream.items] at h
      cases hi : v.iter cd with
      | panic => rw [hi] at h; exact absurd (show Res.panic = Res.ok b from h) (by simp)
      | ok es =>
        rw [hi] at h
        simp only [Res.ok_bind] at h
        obtain ⟨d1, h1, h2 | h2⟩ := scan_run hi (fun e => decide (e.1 = k)) d hd s
        · exact ⟨d1, h1, Or.inl ⟨bind_panic h2.1, h2.2⟩⟩
        · rw [bind_ok h2, upto_any]
          by_cases ha : es.any (fun e => decide (e.1 = k)) = true
          · rw [if_pos ha] at h ⊢
            simp only [Res.pure_eq, Res.ok.injEq] at h
            subst h
            exact ⟨d1, h1, Or.inr rfl⟩
          · rw [if_neg ha] at h ⊢
            obtain ⟨d2, g1, g2 | g2⟩ := ih d1 s b (h1.reading hd) h
            · exact ⟨d2, g1.trans h1, Or.inl ⟨g2.1, h1.bad g2.2⟩⟩
            · exact ⟨d2, g1.trans h1, Or.inr g2⟩

theorem findKey_upto [DecidableEq K] (k : K) (l : List (K × V)) :
    findKey (upto (fun e => decide (e.1 = k)) l) k = findKey l k := by
  induction l with
  | nil => rfl
  | cons e l ih =>
    unfold upto
    by_cases h : e.1 = k
    · simp [findKey, List.findIdx?_cons, h]
    · unfold findKey at ih ⊢
      simp [List.findIdx?_cons, h, ih]

theorem findGo_run [DecidableEq K] (k : K) (st : List (Option IOVec)) : ∀ (i : Nat) (d : Disk) (s : σ)
    (r : Option (Nat × Nat)), d.Reading → ByteStream.findGo cd k i st = .ok r → ∃ d', d'.Le d ∧
    ((findGo cd k i st d s = (.panic, d', s) ∧ d.Bad) ∨ findGo cd k i st d s = (.ok r, d', s)) := by
  induction st with
  | nil =>
    intro i d s r _ h
    simp only [ByteStream.findGo, Res.ok.injEq] at h
    subst h
    exact ⟨d, Disk.Le.refl d, Or.inr rfl⟩
  | cons o st ih =>
    intro i d s r hd h
    cases o with
    | none =>
      have hnil : findKey ([] : List (K × V)) k = none := rfl
      simp only [ByteStream.findGo, ByteStream.items, Res.ok_bind, hnil] at h
      exact ih (i + 1) d s r hd h
    | some v =>
      unfold findGo
      simp only [ByteStream.findGo, ByteStream.items] at h
      cases hi : v.iter cd with
      | panic => rw [hi] at h; exact absurd (show Res.panic = Res.ok r from h) (by simp)
      | ok es =>
        rw [hi] at h
        simp only [Res.ok_bind] at h
        obtain ⟨d1, h1, h2 | h2⟩ := scan_run hi (fun e => decide (e.1 = k)) d hd s
        · exact ⟨d1, h1, Or.inl ⟨bind_panic h2.1, h2.2⟩⟩
        · rw [bind_ok h2, findKey_upto]
          cases hf : findKey es k with
          | some j =>
            rw [hf] at h
            simp only [Res.pure_eq, Res.ok.injEq] at h
            subst h
            exact ⟨d1, h1, Or.inr rfl⟩
          | none =>
            rw [hf] at h
            simp only at h ⊢
            obtain ⟨d2, g1, g2 | g2⟩ := ih (i + 1) d1 s r (h1.reading hd) h
            · exact ⟨d2, g1.trans h1, Or.inl ⟨g2.1, h1.bad g2.2⟩⟩
            · exact ⟨d2, g1.trans h1, Or.inr g2⟩

theorem slotsGo_run {R : Type} (rank : V → R) (st : List (Option IOVec)) : ∀ (i : Nat) (d : Disk) (s : σ)
    (S : List (ByteStream.Slot R × Nat)), d.Reading → ByteStream.allSlots cd rank i st = .ok S → ∃ d', d'.Le d ∧
    ((slotsGo cd rank i st d s = (.panic, d', s) ∧ d.Bad) ∨ slotsGo cd rank i st d s = (.ok S, d', s)) := by
  induction st with
  | nil =>
    intro i d s r _ h
    simp only [ByteStream.allSlots, Res.ok.injEq] at h
    subst h
    exact ⟨d, Disk.Le.refl d, Or.inr rfl⟩
  | cons o st ih =>
    intro i d s r hd h
    cases o with
    | none => exact ih (i + 1) d s r hd h
    | some v =>
      unfold slotsGo
      simp only [ByteStream.allSlots] at h
      cases hi : v.iter cd with
      | panic => rw [hi] at h; exact absurd (show Res.panic = Res.ok r from h) (by simp)
      | ok es =>
        rw [hi] at h
        simp only [Res.ok_bind] at h
        cases hr : ByteStream.allSlots cd rank (i + 1) st with
        | panic => rw [hr] at h; exact absurd (show Res.panic = Res.ok r from h) (by simp)
        | ok rest =>
          rw [hr] at h
          simp only [Res.ok_bind, Res.pure_eq, Res.ok.injEq] at h
          subst h
          obtain ⟨d1, h1, h2 | h2⟩ := scan_run hi (fun _ => false) d hd s
          · exact ⟨d1, h1, Or.inl ⟨bind_panic h2.1, h2.2⟩⟩
          · rw [bind_ok h2, upto_false]
            obtain ⟨d2, g1, g2 | g2⟩ := ih (i + 1) d1 s rest (h1.reading hd) hr
            · exact ⟨d2, g1.trans h1, Or.inl ⟨bind_panic g2.1, h1.bad g2.2⟩⟩
            · exact ⟨d2, g1.trans h1, Or.inr (bind_ok g2)⟩

theorem set_self {E : Type} {l : List E} {i : Nat} {a : E} (h : l[i]? = some a) : l.set i a = l := by
  obtain ⟨hi, rfl⟩ := List.getElem?_eq_some_iff.1 h
  exact List.set_getElem_self hi

/-- Each stream holds the chunks of elements of its size class. -/
def Sound (cd : Codec (K × V)) (s : ByteStream) (ls : List (List (K × V))) : Prop :=
  Streams cd 0 s.stream ls ∧ ls.length = 64

theorem removeAt_run {s : ByteStream} {ls : List (List (K × V))} (h : Sound cd s ls) (i j : Nat) (l : List (K × V))
    (e : K × V) (hi : ls[i]? = some l) (hj : l[j]? = some e) (d : Disk) (hd : d.Reading) :
    ∃ d' s', d'.Le d ∧ s'.capacity = s.capacity ∧
      ((attempt (onStream i (fun c => swapRemove cd c j)) d s = (.ok none, d', s') ∧ d.Bad ∧ Sound cd s' ls) ∨
       (attempt (onStream i (fun c => swapRemove cd c j)) d s = (.ok (some (some e)), d', s') ∧
          Sound cd s' (ls.set i (Byoc.swapRemove l j)) ∧
          ByteStream.removeAt cd s.stream i j = .ok (some e, s'.stream))) := by
  obtain ⟨o, h1, h2⟩ := h.1.get i l hi
  rw [Nat.zero_add] at h2
  cases o with
  | none => simp only [Good] at h2; subst h2; simp at hj
  | some v =>
    obtain ⟨g1, ⟨m, g2⟩, g3⟩ := h2
    have hset : ls.set i l = ls := set_self hi
    obtain ⟨d1, vs, k1, ⟨k2, k3, m', k4⟩ | ⟨k2, m', k3, k4⟩⟩ := swapRemove_run g2 j e hj d hd
    · refine ⟨d1, { s with stream := s.stream.set i (some ⟨vs, v.chunk⟩) }, k1, rfl, Or.inl ⟨?_, k3, ?_, h.2⟩⟩
      · apply attempt_err
        unfold onStream
        simp only [h1, k2]
      · rw [← hset]
        exact h.1.set i _ _ (by rw [Nat.zero_add]; exact ⟨g1, ⟨m', k4⟩, g3⟩)
    · refine ⟨d1, { s with stream := s.stream.set i (some ⟨vs, v.chunk⟩) }, k1, rfl, Or.inr ⟨?_, ⟨?_, by simpa using h.2⟩, by simp [ByteStream.removeAt, h1, k4]⟩⟩
      · apply attempt_ok
        unfold onStream
        simp only [h1, k2]
      · exact h.1.set i _ _ (by
          rw [Nat.zero_add]
          exact ⟨g1, ⟨m', k3⟩, fun x hx => g3 x (ByteStream.mem_swapRemove hj hx)⟩)

theorem set_perm {ls : List (List (K × V))} {i j : Nat} {l : List (K × V)} {e : K × V} (hi : ls[i]? = some l)
    (hj : l[j]? = some e) : ls.flatten.Perm (e :: (ls.set i (Byoc.swapRemove l j)).flatten) := by
  have := ByteStream.flatten_set_perm (d := []) (d' := [e]) (l' := Byoc.swapRemove l j) hi
    (by simpa using (swapRemove_perm hj).symm)
  simpa using this

/-- `contains` -/
theorem contains_run [DecidableEq K] {s : ByteStream} {ls : List (List (K × V))} (h : Sound cd s ls) (k : K) (d : Disk)
    (hd : d.Reading) : ∃ d', d'.Le d ∧ ((contains cd k d s = (.panic, d', s) ∧ d.Bad) ∨
      ∃ b, contains cd k d s = (.ok b, d', s) ∧ (b = true ↔ HasKey ls.flatten k)) := by
  obtain ⟨b, h1, h2⟩ := h.1.contains k
  unfold contains
  rw [get_bind]
  obtain ⟨d1, g1, g2 | g2⟩ := containsGo_run (σ := ByteStream) k s.stream d s b hd h1
  · exact ⟨d1, g1, Or.inl g2⟩
  · exact ⟨d1, g1, Or.inr ⟨b, g2, h2⟩⟩

/-- `take` -/
theorem take_run [DecidableEq K] {s : ByteStream} {ls : List (List (K × V))} (h : Sound cd s ls) (k : K) (d : Disk)
    (hd : d.Reading) : ∃ d' s' ls', d'.Le d ∧ s'.capacity = s.capacity ∧ Sound cd s' ls' ∧
      ((take cd k d s = (.panic, d', s') ∧ d.Bad ∧ ls' = ls) ∨
       (take cd k d s = (.ok none, d', s') ∧ ¬ HasKey ls.flatten k ∧ ls' = ls) ∨
       ∃ e, take cd k d s = (.ok (some e), d', s') ∧ e.1 = k ∧ ls.flatten.Perm (e :: ls'.flatten) ∧
         ByteStream.take cd s k = .ok (some e, s')) := by
  unfold take
  rw [get_bind]
  rcases h.1.find k with ⟨f1, f2⟩ | ⟨a, j, l, e, f1, f2, f3, f4⟩
  · obtain ⟨d1, g1, g2 | g2⟩ := findGo_run (σ := ByteStream) k s.stream 0 d s none hd f1
    · exact ⟨d1, s, ls, g1, rfl, h, Or.inl ⟨bind_panic g2.1, g2.2, rfl⟩⟩
    · exact ⟨d1, s, ls, g1, rfl, h, Or.inr (Or.inl ⟨bind_ok g2, f2, rfl⟩)⟩
  · rw [Nat.zero_add] at f1
    obtain ⟨d1, g1, g2 | g2⟩ := findGo_run (σ := ByteStream) k s.stream 0 d s _ hd f1
    · exact ⟨d1, s, ls, g1, rfl, h, Or.inl ⟨bind_panic g2.1, g2.2, rfl⟩⟩
    · rw [bind_ok g2]
      simp only
      obtain ⟨d2, s2, k1, k2, ⟨k3, k4, k5⟩ | ⟨k3, k4, k6⟩⟩ := removeAt_run h a j l e f2 f3 d1 (g1.reading hd)
      · exact ⟨d2, s2, ls, k1.trans g1, k2, k5, Or.inl ⟨bind_ok k3, g1.bad k4, rfl⟩⟩
      · exact ⟨d2, s2, _, k1.trans g1, k2, k4, Or.inr (Or.inr ⟨e, bind_ok k3, f4, set_perm f2 f3, by
          cases s; cases s2; simp only at k2 k6 f1; subst k2; simp [ByteStream.take, f1, k6]⟩)⟩

theorem removeAll_run (ps : List (Nat × Nat)) : ∀ (s : ByteStream) (ls : List (List (K × V))) (d : Disk), Sound cd s ls →
    d.Reading → ps.Pairwise (fun p q => plt q p) → (∀ p ∈ ps, (at' ls p).isSome) →
    ∃ d' s' ls' out, d'.Le d ∧ s'.capacity = s.capacity ∧ Sound cd s' ls' ∧
      removeAll cd ps d s = (.ok out, d', s') ∧ (out ++ ls'.flatten).Perm ls.flatten ∧
      out.map some <+: ps.map (at' ls) ∧
      (¬ d.Bad → ByteStream.removeAll cd ps s.stream = .ok (out, s'.stream)) := by
  induction ps with
  | nil => intro s ls d h _ _ _; exact ⟨d, s, ls, [], Disk.Le.refl d, rfl, h, rfl, by simp, by simp, fun _ => rfl⟩
  | cons p ps ih =>
    obtain ⟨pi, pj⟩ := p
    intro s ls d h hd hp hs
    obtain ⟨e, he⟩ := Option.isSome_iff_exists.1 (hs (pi, pj) (by simp))
    obtain ⟨l, h1, h2⟩ := ByteStream.at_some he
    rw [List.pairwise_cons] at hp
    unfold removeAll
    obtain ⟨d2, s2, k1, k2, ⟨k3, k4, k5⟩ | ⟨k3, k4, k6⟩⟩ := removeAt_run h pi pj l e h1 h2 d hd
    · exact ⟨d2, s2, ls, [], k1, k2, k5, bind_ok k3, by simp, by simp, fun hb => absurd k4 hb⟩
    · have hat : ∀ q ∈ ps, at' (ls.set pi (Byoc.swapRemove l pj)) q = at' ls q :=
        fun q hq => ByteStream.at_set_lt h1 h2 (hp.1 q hq)
      obtain ⟨d3, s3, ls3, out, g1, g2, g3, g4, g5, g6, g7⟩ := ih s2 _ d2 k4 (k1.reading hd) hp.2
        (fun q hq => by rw [hat q hq]; exact hs q (by simp [hq]))
      refine ⟨d3, s3, ls3, e :: out, g1.trans k1, g2.trans k2, g3, ?_, ?_, ?_, ?_⟩
      · rw [bind_ok k3]; exact bind_ok g4
      · have h3 := set_perm h1 h2
        perms [g5, h3]
      · rw [List.map_cons, List.map_cons, he, List.cons_prefix_cons]
        refine ⟨rfl, ?_⟩
        rwa [List.map_congr_left hat] at g6
      · intro hb
        simp [ByteStream.removeAll, k6, g7 (fun h' => hb (k1.bad h'))]

/-- `pop` -/
theorem pop_run {R : Type} [LinearOrder R] (rank : V → R) {s : ByteStream} {ls : List (List (K × V))} (h : Sound cd s ls)
    (n : Nat) (d : Disk) (hd : d.Reading) : ∃ d' s' ls', d'.Le d ∧ s'.capacity = s.capacity ∧ Sound cd s' ls' ∧
      ((pop cd rank n d s = (.panic, d', s') ∧ d.Bad ∧ ls' = ls) ∨
       ∃ out, pop cd rank n d s = (.ok out, d', s') ∧ (out ++ ls'.flatten).Perm ls.flatten ∧
         (¬ d.Bad → ByteStream.popBy cd rank s n = .ok (out, s'))) := by
  obtain ⟨S, h1, h2, h3, h4⟩ := h.1.allSlots rank
  have h3 := h3 [] rfl
  simp only [List.nil_append, Nat.zero_add] at h3 h4
  obtain ⟨m, k1, k2, k3, -⟩ := KMin.pushAll_spec S (KMin.new n : KMin (ByteStream.Slot R)) [] (KMin.new_inv n)
  simp only [List.nil_append] at k2
  have hsub := k2.sub
  have hmn : m.items.Nodup :=
    k2.sorted.imp (fun {a b} (hlt : KMin.lt a b) (he : a = b) =>
      KMin.lt_irrefl a (by rw [← he] at hlt; exact hlt))
  have hinj : ∀ x ∈ S, ∀ y ∈ S, place x = place y → x = y := by
    intro x hx y hy hxy
    obtain ⟨a, j, l, e, p1, p2, p3⟩ := h4 x hx
    obtain ⟨a', j', l', e', q1, q2, q3⟩ := h4 y hy
    rw [p3, q3] at hxy
    simp only [place, ofLex_toLex, Prod.mk.injEq] at hxy
    obtain ⟨rfl, rfl⟩ := hxy
    rw [p1] at q1; cases q1
    rw [p2] at q2; cases q2
    rw [p3, q3]
  have hpn : (m.items.map place).Nodup := by
    rw [List.nodup_map_iff_inj_on hmn]
    intro x hx y hy hxy
    exact hinj x (hsub x hx) y (hsub y hy) hxy
  obtain ⟨d1, d2⟩ := ByteStream.descending_spec _ hpn
  have hsome : ∀ p ∈ ByteStream.descending (m.items.map place), (at' ls p).isSome := by
    intro p hp
    obtain ⟨x, hx, rfl⟩ := List.mem_map.1 (d1.subset hp)
    obtain ⟨a, j, l, e, p1, p2, p3⟩ := h4 x (hsub x hx)
    simp [p3, place, at', p1, p2]
  unfold pop
  rw [get_bind]
  obtain ⟨e1, g1, g2 | g2⟩ := slotsGo_run (σ := ByteStream) rank s.stream 0 d s S hd h1
  · exact ⟨e1, s, ls, g1, rfl, h, Or.inl ⟨bind_panic g2.1, g2.2, rfl⟩⟩
  · rw [bind_ok g2]
    have hk : (ofRes ((KMin.new n : KMin (ByteStream.Slot R)).pushAll S) : M ByteStream _) e1 s = (.ok m, e1, s) := by
      unfold ofRes; simp only [k1]
    rw [bind_ok hk]
    obtain ⟨e2, s2, ls2, out, q1, q2, q3, q4, q5, -, q7⟩ := removeAll_run _ s ls e1 h (g1.reading hd) d2 hsome
    refine ⟨e2, s2, ls2, q1.trans g1, q2, q3, Or.inr ⟨out, q4, q5, fun hb => ?_⟩⟩
    have h5 := q7 (fun h' => hb (g1.bad h'))
    have h6 : s2 = ⟨s2.stream, s.capacity⟩ := by rw [← q2]
    rw [h6]
    simp only [ByteStream.popBy, h1, Res.ok_bind, k1]
    have h7 : (m.items.map fun x => ofLex (ofLex x.1).2) = m.items.map place := rfl
    rw [h7, h5]
    rfl

theorem pushLoop_run (hsmall : Small cd) (l : List (K × V)) : ∀ (t : Nat) (s : ByteStream) (ls : List (List (K × V)))
    (d : Disk), Sound cd s ls → d.Reading → ∃ d' s' ls' out, d'.Le d ∧ s'.capacity = s.capacity ∧ Sound cd s' ls' ∧
      pushLoop cd l t d s = (.ok out, d', s') ∧ (ls'.flatten ++ out).Perm (ls.flatten ++ l) ∧
      total (csz cd) ls'.flatten + t ≤ max (total (csz cd) ls.flatten + s.capacity) (total (csz cd) ls.flatten + t) ∧
      (Fate.err ∉ d.seeks → ByteStream.pushLoop cd l t s = .ok (out, s')) := by
  induction l with
  | nil => intro t s ls d h _; exact ⟨d, s, ls, [], Disk.Le.refl d, rfl, h, rfl, by simp, by omega, fun _ => rfl⟩
  | cons e l ih =>
    intro t s ls d h hd
    have reject : ∀ (s0 : ByteStream) (ls0 : List (List (K × V))) (d0 : Disk), d0.Le d → Sound cd s0 ls0 →
        ls0.flatten = ls.flatten → s0.capacity = s.capacity →
        (Fate.err ∉ d.seeks → s0 = s ∧ ByteStream.pushLoop cd (e :: l) t s = do
          let (out, s) ← ByteStream.pushLoop cd l t s
          pure (e :: out, s)) →
        ∃ d' s' ls' out, d'.Le d ∧ s'.capacity = s.capacity ∧ Sound cd s' ls' ∧
          (do let out ← pushLoop cd l t; pure (e :: out) : M ByteStream (List (K × V))) d0 s0 = (.ok out, d', s') ∧
          (ls'.flatten ++ out).Perm (ls.flatten ++ e :: l) ∧
          total (csz cd) ls'.flatten + t ≤ max (total (csz cd) ls.flatten + s.capacity) (total (csz cd) ls.flatten + t) ∧
          (Fate.err ∉ d.seeks → ByteStream.pushLoop cd (e :: l) t s = .ok (out, s')) := by
      intro s0 ls0 d0 hle hs0 hfl hc hno
      obtain ⟨d', s', ls', out, g1, g2, g3, g4, g5, g6, g7⟩ := ih t s0 ls0 d0 hs0 (hle.reading hd)
      rw [hfl] at g5 g6
      rw [hc] at g6
      refine ⟨d', s', ls', e :: out, g1.trans hle, g2.trans hc, g3, bind_ok g4, ?_, g6, ?_⟩
      · perms [g5]
      · intro h1
        obtain ⟨rfl, h3⟩ := hno h1
        rw [h3, g7 (fun h' => h1 (hle.seekErr h'))]
        rfl
    unfold pushLoop
    cases henc : cd.enc e with
    | none => simp only; exact reject s ls d (Disk.Le.refl d) h rfl rfl (fun _ => ⟨rfl, by
        conv => lhs; unfold ByteStream.pushLoop
        simp only [henc]⟩)
    | some b =>
      simp only
      obtain ⟨i, c1, c2, c3⟩ := chunkSize_spec b.length (hsmall e b henc)
      have hcls : Class cd i e := ⟨b, henc, c1⟩
      have hsz := hcls.csz
      have hk : (ofRes (chunkSize b.length) : M ByteStream _) d s = (.ok (i, 2 ^ i), d, s) := by
        unfold ofRes; simp only [c1]
      rw [bind_ok hk]
      simp only
      rw [get_bind]
      by_cases hfull : 2 ^ i + t > s.capacity
      · rw [if_pos hfull]
        exact reject s ls d (Disk.Le.refl d) h rfl rfl (fun _ => ⟨rfl, by
          conv => lhs; unfold ByteStream.pushLoop
          simp only [henc, c1, Res.ok_bind, if_pos hfull]⟩)
      · rw [if_neg hfull]
        obtain ⟨lst, hl⟩ : ∃ lst, ls[i]? = some lst := ⟨_, List.getElem?_eq_getElem (by rw [h.2]; omega)⟩
        obtain ⟨o, k1, k2⟩ := h.1.get i lst hl
        rw [Nat.zero_add] at k2
        -- the stream is open
        obtain ⟨s1, v, m, o1, o2, o3, o4, o5, o6, o7, o8⟩ : ∃ (s1 : ByteStream) (v : IOVec) (m : Nat),
            openStream i (2 ^ i) d s = (.ok (), d, s1) ∧ s1.stream[i]? = some (some v) ∧ v.chunk = 2 ^ i ∧
            Repr cd v lst m ∧ Sound cd s1 ls ∧ s1.capacity = s.capacity ∧
            o.getD ⟨VecStream.new, 2 ^ i⟩ = v ∧ ∀ x, s1.stream.set i x = s.stream.set i x := by
          cases o with
          | none =>
            simp only [Good] at k2
            have hlt : i < s.stream.length := (List.getElem?_eq_some_iff.1 k1).1
            refine ⟨{ s with stream := s.stream.set i (some ⟨VecStream.new, 2 ^ i⟩) }, ⟨VecStream.new, 2 ^ i⟩, 0, ?_, ?_,
              rfl, ?_, ?_, rfl, rfl, fun x => by simp⟩
            · unfold openStream; simp only [k1]
            · simp only; exact List.getElem?_set_self hlt
            · rw [k2]; exact Repr.new (Nat.two_pow_pos i)
            · refine ⟨?_, h.2⟩
              have := h.1.set i (some ⟨VecStream.new, 2 ^ i⟩) lst (by
                rw [Nat.zero_add, k2]
                exact ⟨rfl, ⟨0, Repr.new (Nat.two_pow_pos i)⟩, by simp⟩)
              rwa [set_self hl] at this
          | some v =>
            obtain ⟨q1, ⟨m, q2⟩, q3⟩ := k2
            exact ⟨s, v, m, by unfold openStream; simp only [k1], k1, q1, q2, h, rfl, rfl, fun _ => rfl⟩
        rw [bind_ok o1]
        have hcl : ∀ x ∈ lst, Class cd i x := by
          obtain ⟨o', u1, u2⟩ := o5.1.get i lst hl
          rw [o2] at u1; cases u1
          rw [Nat.zero_add] at u2
          exact u2.2.2
        obtain ⟨d1, vs, p1, ⟨p2, p3⟩ | ⟨p2, p3, p4⟩⟩ := append_run o4 e ⟨b, henc, by rw [o3]; exact c2⟩ d hd
        · have hon : onStream i (fun c => append cd c e) d s1 = (.ok .kept, d1, s1) := by
            unfold onStream
            simp only [o2, p2]
            congr 2
            rw [set_self o2]
          rw [bind_ok hon]
          exact reject s1 ls d1 p1 o5 rfl o6 (fun h => absurd p3 h)
        · have hon : onStream i (fun c => append cd c e) d s1 =
              (.ok .done, d1, { s1 with stream := s1.stream.set i (some ⟨vs, v.chunk⟩) }) := by
            unfold onStream
            simp only [o2, p2]
          rw [bind_ok hon]
          simp only
          have hset := o5.1.set i (some ⟨vs, v.chunk⟩) (lst ++ [e]) (by
            rw [Nat.zero_add]
            refine ⟨o3, ⟨_, p3⟩, ?_⟩
            intro x hx
            rcases List.mem_append.1 hx with hx | hx
            · exact hcl x hx
            · simp at hx; subst hx; exact hcls)
          have hperm : (e :: ls.flatten).Perm ((ls.set i (lst ++ [e])).flatten) := by
            have := ByteStream.flatten_set_perm (d := [e]) (d' := []) (l' := lst ++ [e]) hl
              (by simpa using (List.perm_append_singleton e lst).symm)
            simpa using this
          obtain ⟨d2, s2, ls2, out, g1, g2, g3, g4, g5, g6, g7⟩ := ih (t + 2 ^ i)
            { s1 with stream := s1.stream.set i (some ⟨vs, v.chunk⟩) } (ls.set i (lst ++ [e])) d1
            ⟨hset, by simpa using h.2⟩ (p1.reading hd)
          have htot := total_perm (csz cd) hperm
          rw [total_cons, hsz] at htot
          simp only [o6] at g6 g7
          refine ⟨d2, s2, ls2, out, g1.trans p1, g2.trans o6, g3, g4, ?_, by omega, ?_⟩
          · perms [g5, hperm]
          · intro h1
            have := g7 (fun h' => h1 (p1.seekErr h'))
            rw [o8] at this
            unfold ByteStream.pushLoop
            simp only [henc, c1, Res.ok_bind, if_neg hfull, k1, Res.unwrap_some, o7, p4, if_true]
            exact this

/-- `push` -/
theorem push_run (hsmall : Small cd) {s : ByteStream} {ls : List (List (K × V))} (h : Sound cd s ls) (l : List (K × V))
    (d : Disk) (hd : d.Reading) : ∃ d' s' ls' out, d'.Le d ∧ s'.capacity = s.capacity ∧ Sound cd s' ls' ∧
      push cd l d s = (.ok out, d', s') ∧ (ls'.flatten ++ out).Perm (ls.flatten ++ l) ∧
      (Fate.err ∉ d.seeks → total (csz cd) ls.flatten ≤ s.capacity → total (csz cd) ls'.flatten ≤ s.capacity) ∧
      (Fate.err ∉ d.seeks → ByteStream.push cd s l = .ok (out, s')) := by
  unfold push size
  obtain ⟨d1, n, h1, h2, h3, h4⟩ := sizeGo_run (σ := ByteStream) s.stream d s
  have hn : (M.get >>= fun s => sizeGo s.stream : M ByteStream Nat) d s = (.ok n, d1, s) := by rw [get_bind]; exact h2
  rw [bind_ok hn]
  rw [h.1.size] at h3 h4
  obtain ⟨d2, s2, ls2, out, g1, g2, g3, g4, g5, g6, g7⟩ := pushLoop_run hsmall l n s ls d1 h (h1.reading hd)
  refine ⟨d2, s2, ls2, out, g1.trans h1, g2, g3, g4, g5, fun hs hc => ?_, fun hs => ?_⟩
  · have := h4 hs; omega
  · have := g7 (fun h' => hs (h1.seekErr h'))
    unfold ByteStream.push
    rw [ByteStream.size, h.1.size, ← h4 hs]
    exact this

/-! ### Failing writes -/

theorem seek_quiet (w : SeekFrom) {d : Disk} (hd : d.seeks = []) (s : VecStream) :
    seek w d s = (.ok (s.seek w).1, d, (s.seek w).2) := by
  obtain ⟨sk, rd, wr, rs⟩ := d
  simp only at hd
  subst hd
  rfl

theorem sizeGo_quiet (st : List (Option IOVec)) {d : Disk} (hd : d.seeks = []) (s : σ) :
    sizeGo st d s = (.ok (st.map ByteStream.sizeOpt).sum, d, s) := by
  induction st with
  | nil => rfl
  | cons o st ih =>
    cases o with
    | none => simpa [sizeGo, ByteStream.sizeOpt] using ih
    | some v =>
      unfold sizeGo
      have hc : clone (seek (.end 0)) v.stream d s = (.ok (v.stream.seek (.end 0)).1, d, s) := by
        unfold clone; simp only [seek_quiet _ hd]
      rw [bind_ok (attempt_ok hc), bind_ok ih]
      simp [ByteStream.sizeOpt, IOVec.size]

/-- All the seeks of `size` fail. -/
theorem sizeGo_blind (st : List (Option IOVec)) : ∀ (d : Disk) (t : List Fate) (s : σ),
    d.seeks = List.replicate (st.countP Option.isSome) .err ++ t → sizeGo st d s = (.ok 0, { d with seeks := t }, s) := by
  induction st with
  | nil => intro d t s h; obtain ⟨sk, rd, wr, rs⟩ := d; simp at h; subst h; rfl
  | cons o st ih =>
    intro d t s h
    cases o with
    | none => exact ih d t s (by simpa using h)
    | some v =>
      obtain ⟨sk, rd, wr, rs⟩ := d
      simp only [List.countP_cons, Option.isSome_some, if_true, List.replicate_succ, List.cons_append] at h
      subst h
      unfold sizeGo
      have hc : (clone (seek (.end 0)) v.stream : M σ Nat)
          ⟨.err :: (List.replicate (st.countP Option.isSome) .err ++ t), rd, wr, rs⟩ s =
          (.err, ⟨List.replicate (st.countP Option.isSome) .err ++ t, rd, wr, rs⟩, s) := rfl
      rw [bind_ok (attempt_err hc), bind_ok (ih _ t s rfl)]
      rfl

theorem open_run {s : ByteStream} {ls : List (List (K × V))} (h : Sound cd s ls) {i : Nat} {lst : List (K × V)}
    (hl : ls[i]? = some lst) (d : Disk) : ∃ (s1 : ByteStream) (v : IOVec) (m : Nat),
      openStream i (2 ^ i) d s = (.ok (), d, s1) ∧ s1.stream[i]? = some (some v) ∧ v.chunk = 2 ^ i ∧
      Repr cd v lst m ∧ (∀ x ∈ lst, Class cd i x) ∧ Sound cd s1 ls ∧ s1.capacity = s.capacity := by
  obtain ⟨o, k1, k2⟩ := h.1.get i lst hl
  rw [Nat.zero_add] at k2
  cases o with
  | none =>
    simp only [Good] at k2
    have hlt : i < s.stream.length := (List.getElem?_eq_some_iff.1 k1).1
    refine ⟨{ s with stream := s.stream.set i (some ⟨VecStream.new, 2 ^ i⟩) }, ⟨VecStream.new, 2 ^ i⟩, 0, ?_, ?_,
      rfl, ?_, by simp [k2], ⟨?_, h.2⟩, rfl⟩
    · unfold openStream; simp only [k1]
    · simp only; exact List.getElem?_set_self hlt
    · rw [k2]; exact Repr.new (Nat.two_pow_pos i)
    · have := h.1.set i (some ⟨VecStream.new, 2 ^ i⟩) lst (by
        rw [Nat.zero_add, k2]
        exact ⟨rfl, ⟨0, Repr.new (Nat.two_pow_pos i)⟩, by simp⟩)
      rwa [set_self hl] at this
  | some v =>
    obtain ⟨q1, ⟨m, q2⟩, q3⟩ := k2
    exact ⟨s, v, m, by unfold openStream; simp only [k1], k1, q1, q2, q3, h, rfl⟩

/-- `push` of one element for which there seems to be room. -/
theorem push_one (hsmall : Small cd) {s : ByteStream} {ls : List (List (K × V))} (h : Sound cd s ls) (e : K × V)
    (he : cd.enc e ≠ none) (d d1 : Disk) (n : Nat) (hn : sizeGo s.stream d s = (.ok n, d1, s))
    (hfit : csz cd e + n ≤ s.capacity) :
    ∃ (i : Nat) (lst : List (K × V)) (s1 : ByteStream) (v : IOVec) (m : Nat) (ch : List UInt8), ls[i]? = some lst ∧
      csz cd e = 2 ^ i ∧ v.chunk = 2 ^ i ∧ Repr cd v lst m ∧ (∀ x ∈ lst ++ [e], Class cd i x) ∧
      IOVec.chunkOf cd (2 ^ i) e = some ch ∧ ch.length = 2 ^ i ∧
      Sound cd s1 ls ∧ s1.capacity = s.capacity ∧
      ∀ r d2 vs, append cd (2 ^ i) e d1 v.stream = (.ok r, d2, vs) →
        push cd [e] d s = ((match r with | .done => .ok [] | .kept => .ok [e] | .gone => .panic), d2,
          { s1 with stream := s1.stream.set i (some ⟨vs, 2 ^ i⟩) }) := by
  obtain ⟨b, henc⟩ := Option.ne_none_iff_exists'.1 he
  obtain ⟨i, c1, c2, c3⟩ := chunkSize_spec b.length (hsmall e b henc)
  have hcls : Class cd i e := ⟨b, henc, c1⟩
  have hsz := hcls.csz
  obtain ⟨ch, hch⟩ := chunkOf_some henc c2
  obtain ⟨lst, hl⟩ : ∃ lst, ls[i]? = some lst := ⟨_, List.getElem?_eq_getElem (by rw [h.2]; omega)⟩
  obtain ⟨s1, v, m, o1, o2, o3, o4, o5, o6, o7⟩ := open_run h hl d1
  refine ⟨i, lst, s1, v, m, ch, hl, hsz, o3, o4, ?_, hch, (chunkOf_isChunk hch).1, o6, o7, ?_⟩
  · intro x hx
    rcases List.mem_append.1 hx with hx | hx
    · exact o5 x hx
    · simp at hx; subst hx; exact hcls
  · intro r d2 vs hr
    unfold push size
    have hn' : (M.get >>= fun s => sizeGo s.stream : M ByteStream Nat) d s = (.ok n, d1, s) := by rw [get_bind]; exact hn
    rw [bind_ok hn']
    unfold pushLoop
    simp only [henc]
    have hk : (ofRes (chunkSize b.length) : M ByteStream _) d1 s = (.ok (i, 2 ^ i), d1, s) := by
      unfold ofRes; simp only [c1]
    rw [bind_ok hk]
    simp only
    rw [get_bind, if_neg (by omega), bind_ok o1]
    have hon : onStream i (fun c => append cd c e) d1 s1 =
        (.ok r, d2, { s1 with stream := s1.stream.set i (some ⟨vs, 2 ^ i⟩) }) := by
      unfold onStream
      simp only [o2, o3, hr]
    rw [bind_ok hon]
    cases r <;> rfl

/-- `push` does not touch the streams of other size classes, whatever fails. -/
theorem pushLoop_elsewhere (j : Nat) (l : List (K × V)) : ∀ (t : Nat) (d : Disk) (s : ByteStream),
    (∀ e ∈ l, ∀ b c, cd.enc e = some b → chunkSize b.length ≠ .ok (j, c)) →
    (pushLoop cd l t d s).2.2.stream[j]? = s.stream[j]? := by
  induction l with
  | nil => intro t d s _; rfl
  | cons e l ih =>
    intro t d s hl
    have hl' : ∀ e ∈ l, ∀ b c, cd.enc e = some b → chunkSize b.length ≠ .ok (j, c) :=
      fun x hx => hl x (by simp [hx])
    have rest : ∀ d s', ((do let out ← pushLoop cd l t; pure (e :: out) : M ByteStream (List (K × V))) d s').2.2.stream[j]? =
        s'.stream[j]? := by
      intro d s'
      have := ih t d s' hl'
      rcases hm : pushLoop cd l t d s' with ⟨_ | _ | _, d', s''⟩ <;> rw [hm] at this
      · rw [bind_ok hm]; exact this
      · rw [bind_err hm]; exact this
      · rw [bind_panic hm]; exact this
    unfold pushLoop
    cases henc : cd.enc e with
    | none => exact rest d s
    | some b =>
      simp only
      cases hc : chunkSize b.length with
      | panic => rfl
      | ok ic =>
        obtain ⟨i, c⟩ := ic
        have hij : i ≠ j := by
          rintro rfl
          exact hl e (by simp) b c henc hc
        have hk : (ofRes (chunkSize b.length) : M ByteStream _) d s = (.ok (i, c), d, s) := by
          unfold ofRes; simp only [hc]
        rw [← hc, bind_ok hk]
        simp only
        rw [get_bind]
        split
        · exact rest d s
        · have hopen : (openStream i c d s).2.2.stream[j]? = s.stream[j]? := by
            unfold openStream
            split
            · exact List.getElem?_set_ne hij
            · rfl
            · rfl
          rcases ho : openStream i c d s with ⟨_ | _ | _, d1, s1⟩ <;> rw [ho] at hopen
          · rw [bind_ok ho]
            have hon : (onStream i (fun c => append cd c e) d1 s1).2.2.stream[j]? = s1.stream[j]? := by
              unfold onStream
              split
              · exact List.getElem?_set_ne hij
              · rfl
            rcases hm : onStream i (fun c => append cd c e) d1 s1 with ⟨r | _ | _, d2, s2⟩ <;> rw [hm] at hon
            · rw [bind_ok hm]
              cases r with
              | done => exact (ih _ d2 s2 hl').trans (hon.trans hopen)
              | kept => exact (rest d2 s2).trans (hon.trans hopen)
              | gone => exact hon.trans hopen
            · rw [bind_err hm]; exact hon.trans hopen
            · rw [bind_panic hm]; exact hon.trans hopen
          · rw [bind_err ho]; exact hopen
          · rw [bind_panic ho]; exact hopen

/-! ### Short writes -/

theorem write_end (v buf : List UInt8) :
    VecStream.write ⟨v, v.length⟩ buf = .ok (buf.length, ⟨v ++ buf, (v ++ buf).length⟩) := by
  rw [VecStream.write_spec ⟨v, v.length⟩ buf (le_refl _)]
  simp only [VecStream.overwrite, List.take_length, List.drop_of_length_le (Nat.le_add_right v.length buf.length),
    List.append_nil, List.length_append]

/-- Writes that write at least one byte. -/
def Disk.Writing (d : Disk) : Prop := Fate.err ∉ d.writes ∧ Fate.cut 0 ∉ d.writes

/-- The loop of the `BufWriter` goes on after short writes. -/
theorem drain_short (fuel : Nat) : ∀ (buf v : List UInt8) (d : Disk), d.Writing → buf.length < fuel →
    ∃ d', d'.Le d ∧ drain fuel buf d ⟨v, v.length⟩ = (.ok (), d', ⟨v ++ buf, (v ++ buf).length⟩) := by
  induction fuel with
  | zero => intro buf v d _ h; simp at h
  | succ fuel ih =>
    intro buf v d hd hf
    unfold drain
    by_cases hb : buf = []
    · subst hb
      rw [if_pos rfl]
      exact ⟨d, Disk.Le.refl d, by simp⟩
    · rw [if_neg hb]
      have hpos : 0 < buf.length := List.length_pos_of_ne_nil hb
      obtain ⟨sk, rd, wr, rs⟩ := d
      have all : ∀ (t : List Fate), t <:+ wr → write buf ⟨sk, rd, wr, rs⟩ ⟨v, v.length⟩ =
          (.ok buf.length, ⟨sk, rd, t, rs⟩, ⟨v ++ buf, (v ++ buf).length⟩) →
          ∃ d', d'.Le ⟨sk, rd, wr, rs⟩ ∧ (do
            match ← attempt (write buf) with
            | none => pure ()
            | some n => if n = 0 then pure () else drain fuel (buf.drop n) : M VecStream Unit) ⟨sk, rd, wr, rs⟩ ⟨v, v.length⟩ =
            (.ok (), d', ⟨v ++ buf, (v ++ buf).length⟩) := by
        intro t ht hw
        refine ⟨⟨sk, rd, t, rs⟩, ⟨List.suffix_refl _, List.suffix_refl _, ht, List.suffix_refl _⟩, ?_⟩
        rw [bind_ok (attempt_ok hw)]
        simp only
        rw [if_neg (by omega), List.drop_length]
        cases fuel with
        | zero => omega
        | succ fuel => unfold drain; rw [if_pos rfl]; rfl
      rcases wr with _ | ⟨f, t⟩
      · refine all [] (List.suffix_refl _) ?_
        simp only [write, put, write_end, List.tail_nil]
      · cases f with
        | ok =>
          refine all t (List.suffix_cons _ _) ?_
          simp only [write, put, write_end, List.tail_cons]
        | err => exact absurd (by simp) hd.1
        | cut m =>
          have hm : m ≠ 0 := by rintro rfl; exact hd.2 (by simp)
          have hw : write buf ⟨sk, rd, .cut m :: t, rs⟩ ⟨v, v.length⟩ =
              (.ok (buf.take m).length, ⟨sk, rd, t, rs⟩, ⟨v ++ buf.take m, (v ++ buf.take m).length⟩) := by
            simp only [write, put, write_end]
          rw [bind_ok (attempt_ok hw)]
          simp only
          have hlen : (buf.take m).length = min m buf.length := by simp
          rw [if_neg (by omega)]
          obtain ⟨d', h1, h2⟩ := ih (buf.drop (buf.take m).length) (v ++ buf.take m) ⟨sk, rd, t, rs⟩
            ⟨fun h => hd.1 (by simp only [List.mem_cons]; exact Or.inr h),
              fun h => hd.2 (by simp only [List.mem_cons]; exact Or.inr h)⟩
            (by rw [List.length_drop]; omega)
          refine ⟨d', h1.trans ⟨List.suffix_refl _, List.suffix_refl _, List.suffix_cons _ _, List.suffix_refl _⟩, ?_⟩
          rw [h2]
          have : v ++ buf.take m ++ buf.drop (buf.take m).length = v ++ buf := by
            rw [List.append_assoc]
            congr 1
            rcases Nat.le_total m buf.length with hle | hle
            · rw [hlen, Nat.min_eq_left hle, List.take_append_drop]
            · rw [List.take_of_length_le hle, List.drop_length, List.append_nil]
          rw [this]

theorem append_short {v : IOVec} {l : List (K × V)} {m : Nat} (h : Repr cd v l m) (o : K × V)
    (hfit : ∃ b, cd.enc o = some b ∧ b.length ≤ v.chunk) (hc : v.chunk < bufCap) (d : Disk) (hs : d.seeks = [])
    (hd : d.Writing) :
    ∃ d' s', d'.Le d ∧ append cd v.chunk o d v.stream = (.ok .done, d', s') ∧
      Repr cd ⟨s', v.chunk⟩ (l ++ [o]) (l.length + 1) := by
  obtain ⟨v', k1, k2, k3⟩ := h.append_one o hfit
  obtain ⟨b, hb, hbl⟩ := hfit
  obtain ⟨ch, hch⟩ := chunkOf_some hb hbl
  have hl := (chunkOf_isChunk hch).1
  rw [IOVec.append] at k1
  simp only [VecStream.seek_end, List.reverse_cons, List.reverse_nil, List.nil_append, appendLoop, hch, write_end,
    Res.ok_bind, Res.pure_eq, Res.ok.injEq, Prod.mk.injEq, true_and] at k1
  rw [← k1] at k3
  obtain ⟨d', h1, h2⟩ := drain_short (ch.length + 1) ch v.stream.vec d hd (by omega)
  refine ⟨d', _, h1, ?_, k3⟩
  unfold append
  rw [bind_ok (attempt_ok (seek_quiet (.end 0) hs v.stream)), VecStream.seek_end]
  simp only [hch]
  rw [if_pos (by rw [hl]; exact hc)]
  exact bind_ok h2

end

end Byoc.Faults
