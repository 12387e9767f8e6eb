import Verif.Model.Compressed
import Verif.Proofs.Std
import Verif.Spec
import Mathlib.Data.List.Nodup

/-!
# Compressed: proofs
-/

namespace Byoc

namespace VecCodec

variable {O : Type} (cd : VecCodec O)

theorem header_length (n : Nat) : (header n).length = 8 := by simp [header]

theorem body_some (l : List O) : (∀ o ∈ l, cd.enc o ≠ none) →
    ∃ b, cd.body l = some b ∧ b.length = total cd.size l := by
  induction l with
  | nil => intro _; exact ⟨[], rfl, rfl⟩
  | cons o l ih =>
    intro h
    obtain ⟨b, h1, h2⟩ := ih (fun x hx => h x (by simp [hx]))
    cases ho : cd.enc o with
    | none => exact absurd ho (h o (by simp))
    | some a => exact ⟨a ++ b, by simp [body, ho, h1], by simp [h2, VecCodec.size, ho]⟩

theorem body_none (l : List O) : cd.body l ≠ none → ∀ o ∈ l, cd.enc o ≠ none := by
  induction l with
  | nil => simp
  | cons a l ih =>
    intro h o ho
    have h1 : cd.enc a ≠ none := by
      intro h0; simp [body, h0] at h
    have h2 : cd.body l ≠ none := by
      intro h0; simp [body, h0] at h
    rcases List.mem_cons.1 ho with rfl | ho
    · exact h1
    · exact ih h2 o ho

theorem encode_some (l : List O) (h : ∀ o ∈ l, cd.enc o ≠ none) :
    ∃ b, cd.encode l = some b ∧ b.length = 8 + total cd.size l := by
  obtain ⟨b, h1, h2⟩ := cd.body_some l h
  exact ⟨header l.length ++ b, by simp [encode, h1], by simp [header_length, h2]⟩

theorem encode_enc {l : List O} {b : List UInt8} (h : cd.encode l = some b) :
    (∀ o ∈ l, cd.enc o ≠ none) ∧ b.length = 8 + total cd.size l := by
  have h1 : cd.body l ≠ none := by
    intro h0; simp [encode, h0] at h
  have h2 := cd.body_none l h1
  refine ⟨h2, ?_⟩
  obtain ⟨b', h3, h4⟩ := cd.encode_some l h2
  rw [h] at h3; cases h3; exact h4

end VecCodec

namespace Compressed

variable {K V : Type} (z : Lz4) (cd : VecCodec (K × V))

/-- The elements stored. -/
def elems (c : Compressed) : List (K × V) := (c.read z cd).getD []

/-- The stream holds the serialisation of `l`, which respects the capacity. -/
def Holds (c : Compressed) (l : List (K × V)) : Prop :=
  (∀ e ∈ l, cd.enc e ≠ none) ∧
  if l = [] then c.stream.vec = []
  else ∃ b, cd.encode l = some b ∧ c.stream.vec = z.comp b ∧ b.length ≤ c.capacity

/-- States reached by calls. -/
def Inv (c : Compressed) : Prop := ∃ l, Holds z cd c l

variable {z cd}

theorem Holds.readBytes {c : Compressed} {l : List (K × V)} (h : Holds z cd c l) :
    ∃ b, c.readBytes z = some b ∧ (if b = [] then some [] else cd.dec b) = c.read z cd ∧
      b.length = (if l = [] then 0 else 8 + total cd.size l) ∧ b.length ≤ c.capacity := by
  obtain ⟨h1, h2⟩ := h
  by_cases hl : l = []
  · rw [if_pos hl] at h2
    exact ⟨[], by simp [Compressed.readBytes, h2, z.empty], by simp [Compressed.read, Compressed.readBytes, h2, z.empty],
      by simp [hl], by simp⟩
  · rw [if_neg hl] at h2
    obtain ⟨b, e1, e2, e3⟩ := h2
    refine ⟨b, by simp [Compressed.readBytes, e2, z.law], by simp [Compressed.read, Compressed.readBytes, e2, z.law], ?_, e3⟩
    rw [if_neg hl]; exact (cd.encode_enc e1).2

theorem Holds.read (hlaw : cd.Law) {c : Compressed} {l : List (K × V)} (h : Holds z cd c l) :
    c.read z cd = some l := by
  obtain ⟨h1, h2⟩ := h
  by_cases hl : l = []
  · rw [if_pos hl] at h2
    simp [Compressed.read, Compressed.readBytes, h2, z.empty, hl]
  · rw [if_neg hl] at h2
    obtain ⟨b, e1, e2, -⟩ := h2
    have hb : b ≠ [] := by
      intro h0
      have := (cd.encode_enc e1).2
      rw [h0] at this; simp at this; omega
    simp [Compressed.read, Compressed.readBytes, e2, z.law, hb, hlaw l b e1]

theorem Holds.elems (hlaw : cd.Law) {c : Compressed} {l : List (K × V)} (h : Holds z cd c l) :
    elems z cd c = l := by simp [Compressed.elems, h.read hlaw]

theorem Inv.holds (hlaw : cd.Law) {c : Compressed} (h : Inv z cd c) : Holds z cd c (elems z cd c) := by
  obtain ⟨l, h⟩ := h
  rw [h.elems hlaw]; exact h

theorem Holds.size {c : Compressed} {l : List (K × V)} (h : Holds z cd c l) :
    c.size z = if l = [] then 0 else 8 + total cd.size l := by
  obtain ⟨b, h1, -, h3, -⟩ := h.readBytes
  simp [Compressed.size, h1, h3]

theorem Holds.bounded {c : Compressed} {l : List (K × V)} (h : Holds z cd c l) :
    c.size z ≤ c.capacity := by
  obtain ⟨b, h1, -, h3, h4⟩ := h.readBytes
  simpa [Compressed.size, h1] using h4

theorem resize_zero (s : VecStream) : s.resize 0 = ⟨[], 0⟩ := by
  simp only [VecStream.resize, VecStream.resizeVec]
  congr 1
  split <;> omega

theorem write_spec (c : Compressed) (l : List (K × V)) (henc : ∀ e ∈ l, cd.enc e ≠ none)
    (hsz : l = [] ∨ 8 + total cd.size l ≤ c.capacity) :
    ∃ c', c.rewrite z cd l = .ok c' ∧ Holds z cd c' l ∧ c'.capacity = c.capacity := by
  unfold rewrite write
  by_cases hl : l = []
  · rw [if_pos hl]
    refine ⟨_, rfl, ⟨henc, ?_⟩, rfl⟩
    rw [if_pos hl]; simp [resize_zero]
  · rw [if_neg hl]
    obtain ⟨b, h1, h2⟩ := cd.encode_some l henc
    have hb : b.length ≤ c.capacity := by
      rcases hsz with h | h
      · exact absurd h hl
      · omega
    simp only [h1]
    rw [if_neg (by omega), resize_zero]
    have : ((VecStream.mk [] 0).seek (.start 0)).2 = ⟨[], 0⟩ := by simp [VecStream.seek]
    rw [this]
    have hw : (VecStream.mk [] 0).write (z.comp b) = .ok ((z.comp b).length, ⟨z.comp b, (z.comp b).length⟩) := by
      simp only [VecStream.write, Res.sub, List.length_nil, Nat.le_refl, if_true, Nat.sub_self,
        Res.ok_bind, Res.pure_eq, Nat.zero_add]
      congr 3
      split
      · unfold VecStream.overwrite
        rw [List.drop_of_length_le]
        · simp
        · simp only [VecStream.resizeVec]; split <;> simp
      · unfold VecStream.overwrite; simp
    rw [hw]
    refine ⟨_, rfl, ⟨henc, ?_⟩, rfl⟩
    rw [if_neg hl]
    exact ⟨b, h1, rfl, hb⟩

/-- A list that does not fit is refused. -/
theorem write_refused (c : Compressed) (l : List (K × V)) (hl : l ≠ [])
    (h : c.capacity < 8 + total cd.size l) : c.rewrite z cd l = .panic := by
  unfold rewrite write
  rw [if_neg hl]
  cases he : cd.encode l with
  | none => rfl
  | some b =>
    have := (cd.encode_enc he).2
    simp only
    rw [if_pos (by omega)]
    rfl

/-! ### contains, take -/

theorem contains_spec [DecidableEq K] (hlaw : cd.Law) {c : Compressed} {l : List (K × V)}
    (h : Holds z cd c l) (k : K) : c.contains z cd k = true ↔ HasKey l k := by
  simp [Compressed.contains, h.read hlaw, HasKey]

theorem total_le_of_perm_cons {l l' : List (K × V)} {e : K × V} (h : (e :: l').Perm l) :
    total cd.size l' ≤ total cd.size l := by
  rw [← total_perm cd.size h]; simp

/-- Storing fewer elements always works. -/
theorem Holds.rewrite {c : Compressed} {l l' out : List (K × V)} (h : Holds z cd c l)
    (hp : (l' ++ out).Perm l) :
    ∃ c', c.rewrite z cd l' = .ok c' ∧ Holds z cd c' l' ∧ c'.capacity = c.capacity := by
  refine write_spec c l' (fun e he => h.1 e (hp.subset (by simp [he]))) ?_
  by_cases hl' : l' = []
  · exact Or.inl hl'
  · right
    have hl : l ≠ [] := by
      intro h0; subst h0
      have := hp.eq_nil
      simp [hl'] at this
    obtain ⟨b, -, -, h3, h4⟩ := h.readBytes
    rw [if_neg hl] at h3
    have := total_perm cd.size hp
    rw [total_append] at this
    omega

theorem take_spec [DecidableEq K] (hlaw : cd.Law) {c : Compressed} {l : List (K × V)}
    (h : Holds z cd c l) (k : K) :
    ∃ o c' l', c.take z cd k = .ok (o, c') ∧ Holds z cd c' l' ∧ c'.capacity = c.capacity ∧
      match o with
      | none => ¬ HasKey l k ∧ l' = l
      | some e => e.1 = k ∧ (e :: l').Perm l := by
  unfold take
  rw [h.read hlaw]
  simp only
  cases hf : findKey l k with
  | none => exact ⟨none, c, l, rfl, h, rfl, findKey_none hf, rfl⟩
  | some i =>
    obtain ⟨e, h1, h2, -⟩ := findKey_some hf
    have hp := swapRemove_perm h1
    obtain ⟨c', g1, g2, g3⟩ := h.rewrite (l' := swapRemove l i) (out := [e])
      (by perms [hp])
    exact ⟨some e, c', _, by simp [h1, g1], g2, g3, h2, hp⟩

/-! ### pop -/

theorem pop_spec (hlaw : cd.Law) (srt : Sorter (K × V)) {c : Compressed} {l : List (K × V)}
    (h : Holds z cd c l) (n : Nat) :
    ∃ out c' l', c.pop z cd srt n = .ok (out, c') ∧ Holds z cd c' l' ∧ c'.capacity = c.capacity ∧
      (l' ++ out).Perm l ∧ (c'.size z + n ≤ c.size z ∨ l' = []) ∧ (l ≠ [] → out ≠ []) ∧
      (l ≠ [] → srt.run l = l' ++ out) := by
  unfold pop
  rw [h.read hlaw]
  simp only
  by_cases hl : l = []
  · subst hl
    rw [if_pos rfl]
    exact ⟨[], c, [], rfl, h, rfl, by simp, Or.inr rfl, by simp, by simp⟩
  · rw [if_neg hl]
    have hsl : srt.run l ≠ [] := fun h0 => hl (by simpa [h0] using (srt.perm l))
    obtain ⟨p, q, h1, h2, h3, h4, -⟩ := findCut_spec cd.size n (srt.run l) hsl
    simp only [h3]
    split
    · rename_i hlt
      have hpn : p = [] := by
        rcases h4 with h4 | h4
        · exact h4
        · omega
      refine ⟨_, _, [], rfl, ⟨by simp, ?_⟩, rfl, by simpa using srt.perm l, Or.inr rfl, fun _ => hsl,
        by simp⟩
      rw [if_pos rfl]; simp [resize_zero]
    · rename_i hge
      have htake : (srt.run l).take p.length = p := by rw [h1]; simp
      have hdrop : (srt.run l).drop p.length = q := by rw [h1]; simp
      have hperm : (p ++ q).Perm l := by rw [← h1]; exact srt.perm l
      obtain ⟨c', g1, g2, g3⟩ := h.rewrite hperm
      refine ⟨q, c', p, by simp [htake, hdrop, g1], g2, g3, hperm, ?_, fun _ => h2, fun _ => h1⟩
      by_cases hp : p = []
      · exact Or.inr hp
      · left
        rw [g2.size, h.size, if_neg hp, if_neg hl]
        have := total_perm cd.size hperm
        rw [total_append] at this
        omega

/-! ### push -/

/-- What `push` keeps and what it hands back. -/
theorem push_split (hlaw : cd.Law) (srtU : Sorter (K × V)) {c : Compressed} {l : List (K × V)}
    (h : Holds z cd c l) (values : List (K × V)) :
    ∃ out c' l', c.push z cd srtU values = .ok (out, c') ∧ Holds z cd c' l' ∧
      c'.capacity = c.capacity ∧ (l' ++ out).Perm (l ++ values) ∧
      ((∃ e ∈ values, cd.enc e = none) ∧ out = values ∧ l' = l ∨
       (∃ p q, srtU.run values = p ++ q ∧ l' = p ∧ out = l ++ q) ∨
       (∃ p q, srtU.run l = p ++ q ∧ l' = p ++ values ∧ out = q) ∨
       l' = l ++ values ∧ out = []) := by
  obtain ⟨bytes, b1, b2, b3, b4⟩ := h.readBytes
  unfold push
  rw [b1]
  simp only
  rw [b2, h.read hlaw]
  simp only
  cases he : cd.encode values with
  | none =>
    refine ⟨values, c, l, rfl, h, rfl, List.Perm.refl _, .inl ⟨?_, rfl, rfl⟩⟩
    by_contra hc
    push Not at hc
    obtain ⟨b, hb, -⟩ := cd.encode_some values hc
    rw [he] at hb; cases hb
  | some eb =>
    obtain ⟨e1, e2⟩ := cd.encode_enc he
    simp only [Res.sub_ok b4, Res.ok_bind]
    have cutspec : ∀ (m : Nat) (v : List (K × V)), ∃ p q, srtU.run v = p ++ q ∧
        (findCutAtSize cd.size m (srtU.run v)).1 = p.length ∧ (p = [] ∨ m ≤ total cd.size q) ∧
        (p ++ q).Perm v := by
      intro m v
      by_cases hv : srtU.run v = []
      · exact ⟨[], [], by simp [hv], by simp [hv, findCutAtSize, findCutGo], Or.inl rfl,
          by rw [List.append_nil, ← hv]; exact srtU.perm v⟩
      · obtain ⟨p, q, h1, -, h3, h4, -⟩ := findCut_spec cd.size m (srtU.run v) hv
        exact ⟨p, q, h1, by rw [h3], h4, by rw [← h1]; exact srtU.perm v⟩
    split
    · rename_i hgt
      obtain ⟨p, q, h1, h2, h3, h4⟩ := cutspec (eb.length - c.capacity) values
      have htake : (srtU.run values).take p.length = p := by rw [h1]; simp
      have hdrop : (srtU.run values).drop p.length = q := by rw [h1]; simp
      obtain ⟨c', g1, g2, g3⟩ := write_spec (z := z) c p
        (fun e he => e1 e (h4.subset (by simp [he]))) (by
          rcases h3 with h3 | h3
          · exact Or.inl h3
          · right
            have := total_perm cd.size h4
            rw [total_append] at this
            omega)
      refine ⟨l ++ q, c', p, ?_, g2, g3, by perms [h4], .inr (.inl ⟨p, q, h1, rfl, rfl⟩)⟩
      simp only [h2, htake, hdrop, g1, Res.ok_bind, Res.pure_eq]
    · rename_i hle
      split
      · rename_i hroom
        obtain ⟨c', g1, g2, g3⟩ := write_spec (z := z) c (l ++ values)
          (fun e he => by
            rcases List.mem_append.1 he with he | he
            · exact h.1 e he
            · exact e1 e he) (by
            right
            rw [total_append]
            split at b3
            · rename_i hl; simp [hl]; omega
            · omega)
        exact ⟨[], c', l ++ values, by simp [g1], g2, g3, by simp, .inr (.inr (.inr ⟨rfl, rfl⟩))⟩
      · rename_i hroom
        have hl : l ≠ [] := by
          intro hl
          rw [if_pos hl] at b3
          omega
        rw [if_neg hl] at b3
        obtain ⟨p, q, h1, h2, h3, h4⟩ := cutspec (eb.length - (c.capacity - bytes.length)) l
        have htake : (srtU.run l).take p.length = p := by rw [h1]; simp
        have hdrop : (srtU.run l).drop p.length = q := by rw [h1]; simp
        have ht := total_perm cd.size h4
        rw [total_append] at ht
        obtain ⟨c', g1, g2, g3⟩ := write_spec (z := z) c (p ++ values)
          (fun e he => by
            rcases List.mem_append.1 he with he | he
            · exact h.1 e (h4.subset (by simp [he]))
            · exact e1 e he) (by
            right
            rw [total_append]
            rcases h3 with h3 | h3
            · simp [h3]; omega
            · omega)
        refine ⟨q, c', p ++ values, ?_, g2, g3, by perms [h4], .inr (.inr (.inl ⟨p, q, h1, rfl, rfl⟩))⟩
        simp only [h2, htake, hdrop, g1, Res.ok_bind, Res.pure_eq]

theorem push_spec (hlaw : cd.Law) (srtU : Sorter (K × V)) {c : Compressed} {l : List (K × V)}
    (h : Holds z cd c l) (values : List (K × V)) :
    ∃ out c' l', c.push z cd srtU values = .ok (out, c') ∧ Holds z cd c' l' ∧
      c'.capacity = c.capacity ∧ (l' ++ out).Perm (l ++ values) := by
  obtain ⟨out, c', l', h1, h2, h3, h4, -⟩ := push_split hlaw srtU h values
  exact ⟨out, c', l', h1, h2, h3, h4⟩

theorem flush_spec (hlaw : cd.Law) {c : Compressed} {l : List (K × V)} (h : Holds z cd c l) :
    ∃ c', c.flush z cd = .ok (l, c') ∧ Holds z cd c' [] ∧ c'.capacity = c.capacity := by
  refine ⟨{ c with stream := c.stream.resize 0 }, by simp [flush, h.read hlaw], ⟨by simp, ?_⟩, rfl⟩
  rw [if_pos rfl]; simp [resize_zero]

/-! ### accesses -/

theorem get_spec [DecidableEq K] (hlaw : cd.Law) {c : Compressed} {l : List (K × V)}
    (h : Holds z cd c l) (k : K) (touch : V → V) :
    ∃ o, c.get z cd k touch = .ok (o, c) ∧
      match o with
      | none => ¬ HasKey l k
      | some v => (k, v) ∈ l := by
  unfold get
  rw [h.read hlaw]
  refine ⟨_, rfl, ?_⟩
  cases hf : l.find? (fun e => decide (e.1 = k)) with
  | none =>
    rw [List.find?_eq_none] at hf
    rintro ⟨v, hv⟩
    simpa using hf _ hv
  | some e =>
    have h1 := List.mem_of_find?_eq_some hf
    have h2 : e.1 = k := by simpa using List.find?_some hf
    subst h2
    exact h1

theorem set_perm {E : Type} {l : List E} {i : Nat} {e : E} (h : l[i]? = some e) (x : E) :
    ∃ r, l.Perm (e :: r) ∧ (l.set i x).Perm (x :: r) := by
  obtain ⟨hi, rfl⟩ := List.getElem?_eq_some_iff.1 h
  refine ⟨l.eraseIdx i, (List.getElem_cons_eraseIdx_perm hi).symm, ?_⟩
  have h2 := List.getElem_cons_eraseIdx_perm (l := l.set i x) (n := i) (by simpa using hi)
  simpa [List.eraseIdx_set_eq] using h2.symm

theorem getMut_spec [DecidableEq K] (hlaw : cd.Law) {c : Compressed} {l : List (K × V)}
    (h : Holds z cd c l) (k : K) (f : V → V)
    (hf : ∀ k v, cd.enc (k, v) ≠ none → cd.enc (k, f v) ≠ none ∧ cd.size (k, f v) ≤ cd.size (k, v)) :
    ∃ o c' l', c.getMut z cd k f = .ok (o, c') ∧ Holds z cd c' l' ∧ c'.capacity = c.capacity ∧
      match o with
      | none => ¬ HasKey l k ∧ l' = l
      | some v => ∃ rest, l.Perm ((k, v) :: rest) ∧ l'.Perm ((k, f v) :: rest) := by
  unfold getMut
  rw [h.read hlaw]
  simp only
  cases hk : findKey l k with
  | none => exact ⟨none, c, l, rfl, h, rfl, findKey_none hk, rfl⟩
  | some i =>
    obtain ⟨e, h1, h2, -⟩ := findKey_some hk
    subst h2
    obtain ⟨r, r1, r2⟩ := set_perm h1 (e.1, f e.2)
    have hmem : e ∈ l := r1.symm.subset (by simp)
    obtain ⟨f1, f2⟩ := hf e.1 e.2 (h.1 e hmem)
    change cd.size (e.1, f e.2) ≤ cd.size e at f2
    have hl : l ≠ [] := List.ne_nil_of_mem hmem
    obtain ⟨b, -, -, b3, b4⟩ := h.readBytes
    rw [if_neg hl] at b3
    have t1 := total_perm cd.size r1
    have t2 := total_perm cd.size r2
    simp only [total_cons] at t1 t2
    obtain ⟨c', g1, g2, g3⟩ := write_spec (z := z) c (l.set i (e.1, f e.2))
      (fun x hx => by
        rcases List.mem_cons.1 (r2.subset hx) with rfl | hx
        · exact f1
        · exact h.1 x (r1.symm.subset (by simp [hx]))) (by
        right; omega)
    refine ⟨some e.2, { c with stream := { c.stream with vec := c'.stream.vec } }, _, by simp [h1, g1], ⟨g2.1, ?_⟩, rfl, r, r1, r2⟩
    have := g2.2
    simpa [g3] using this

/-! ### take_multiple -/

theorem swapRemove_getElem? {E : Type} {l : List E} {i j : Nat} (hj : j < i) (hi : i < l.length) :
    (swapRemove l i)[j]? = l[j]? := by
  unfold swapRemove
  cases hl : l.getLast? with
  | none => rw [List.getLast?_eq_none_iff] at hl; subst hl; simp at hi
  | some x =>
    simp only
    rw [List.getElem?_set_ne (by omega), List.getElem?_dropLast, if_pos (by omega)]

theorem removeIdxs_spec {E : Type} (is : List Nat) : ∀ (l : List E), is.Pairwise (· > ·) →
    (∀ i ∈ is, i < l.length) →
    ∃ out rest, removeIdxs is l = .ok (out, rest) ∧ (rest ++ out).Perm l ∧
      out = is.filterMap (fun i => l[i]?) := by
  induction is with
  | nil => intro l _ _; exact ⟨[], l, rfl, by simp, rfl⟩
  | cons i is ih =>
    intro l hs hb
    have hi := hb i (by simp)
    obtain ⟨e, he⟩ : ∃ e, l[i]? = some e := ⟨l[i], by simp [hi]⟩
    have hlt : ∀ j ∈ is, j < i := (List.pairwise_cons.1 hs).1
    have hp := swapRemove_perm he
    have hlen := hp.length_eq
    simp only [List.length_cons] at hlen
    obtain ⟨out, rest, h1, h2, h3⟩ := ih (swapRemove l i) (List.pairwise_cons.1 hs).2
      (fun j hj => by have := hlt j hj; omega)
    refine ⟨e :: out, rest, by simp [removeIdxs, he, h1], by perms [h2, hp], ?_⟩
    rw [h3, List.filterMap_cons, he]
    congr 1
    apply List.filterMap_congr
    intro j hj
    exact swapRemove_getElem? (hlt j hj) hi

theorem matchesOf_fst_gt [LinearOrder K] (keys : List K) (l : List (K × V)) : ∀ i,
    (∀ x ∈ (matchesOf keys i l).map Prod.fst, i ≤ x ∧ x < i + l.length) ∧
    ((matchesOf keys i l).map Prod.fst).Pairwise (· < ·) := by
  induction l with
  | nil => intro i; simp [matchesOf]
  | cons e l ih =>
    intro i
    obtain ⟨h1, h2⟩ := ih (i + 1)
    simp only [matchesOf]
    cases bsearch keys e.1 with
    | none =>
      refine ⟨fun x hx => ?_, h2⟩
      have := h1 x hx
      simp only [List.length_cons]; omega
    | some j =>
      simp only [List.map_cons]
      refine ⟨?_, List.pairwise_cons.2 ⟨fun x hx => ?_, h2⟩⟩
      · intro x hx
        rcases List.mem_cons.1 hx with rfl | hx
        · simp
        · have := h1 x hx
          simp only [List.length_cons]; omega
      · have := h1 x hx; omega

/-- The elements at the indices matched are those whose key is found. -/
theorem matchesOf_elems [LinearOrder K] (keys : List K) (l : List (K × V)) :
    ∀ (pre : List (K × V)),
    ((matchesOf keys pre.length l).map Prod.fst).filterMap (fun i => (pre ++ l)[i]?) =
      l.filter (fun e => (bsearch keys e.1).isSome) := by
  induction l with
  | nil => intro pre; simp [matchesOf]
  | cons e l ih =>
    intro pre
    have := ih (pre ++ [e])
    simp only [List.length_append, List.length_cons, List.length_nil, Nat.zero_add, List.append_assoc,
      List.singleton_append] at this
    simp only [matchesOf]
    cases hb : bsearch keys e.1 with
    | none =>
      simp only [List.filter_cons, hb, Option.isSome_none]
      simpa using this
    | some j =>
      have h0 : (pre ++ e :: l)[pre.length]? = some e := by simp
      simp only [List.map_cons, List.filterMap_cons, h0, this, List.filter_cons, hb,
        Option.isSome_some, if_true]

theorem matchesOf_snd [LinearOrder K] (keys : List K) (l : List (K × V)) : ∀ i,
    (matchesOf keys i l).map Prod.snd = l.filterMap (fun e => bsearch keys e.1) := by
  induction l with
  | nil => intro i; rfl
  | cons e l ih =>
    intro i
    simp only [matchesOf, List.filterMap_cons]
    cases hb : bsearch keys e.1 with
    | none => simp [ih]
    | some j => simp [ih]

theorem insertionSort_strict (l : List Nat) (h : l.Nodup) :
    (l.insertionSort (· ≤ ·)).reverse.Pairwise (· > ·) := by
  rw [List.pairwise_reverse]
  have h1 : (l.insertionSort (· ≤ ·)).Pairwise (· ≤ ·) := List.pairwise_insertionSort _ _
  have h2 : (l.insertionSort (· ≤ ·)).Nodup := (List.perm_insertionSort _ _).nodup_iff.2 h
  have := h1.and h2
  exact this.imp (fun ⟨a, b⟩ => by omega)

/-- With distinct keys stored, `take_multiple` behaves. -/
theorem takeMultiple_spec [LinearOrder K] (hlaw : cd.Law) {c : Compressed} {l : List (K × V)}
    (h : Holds z cd c l) (hd : (l.map Prod.fst).Nodup) (ks : List K) :
    ∃ out ks' c' l', c.takeMultiple z cd ks = .ok (out, ks', c') ∧ Holds z cd c' l' ∧
      c'.capacity = c.capacity ∧ (l' ++ out).Perm l ∧ (∀ e ∈ out, e.1 ∈ ks) ∧
      (∀ k ∈ ks, HasKey l k → HasKey out k) ∧ (out.map Prod.fst ++ ks').Perm ks := by
  have hsorted := sortKeys_sorted ks
  have hkp := sortKeys_perm ks
  set keys := sortKeys ks with hkeys
  obtain ⟨f1, f2⟩ := matchesOf_fst_gt keys l 0
  obtain ⟨out, rest, o1, o2, o3⟩ := removeIdxs_spec ((matchesOf keys 0 l).map Prod.fst).reverse l
    (by rw [List.pairwise_reverse]; exact f2)
    (fun i hi => by have := f1 i (by simpa using hi); omega)
  have hout : out = (l.filter (fun e => (bsearch keys e.1).isSome)).reverse := by
    rw [o3, List.filterMap_reverse]
    have := matchesOf_elems keys l []
    simp only [List.length_nil, List.nil_append] at this
    rw [this]
  -- the keys
  have hsnd : (matchesOf keys 0 l).map Prod.snd = (l.map Prod.fst).filterMap (bsearch keys) := by
    rw [matchesOf_snd, List.filterMap_map]; rfl
  have hnd : ((matchesOf keys 0 l).map Prod.snd).Nodup := by
    rw [hsnd]
    refine List.Nodup.filterMap ?_ hd
    intro a a' b hb hb'
    rw [Option.mem_def] at hb hb'
    have h1 := bsearch_sound hb
    have h2 := bsearch_sound hb'
    rw [h1] at h2
    simpa using h2
  obtain ⟨kout, krest, k1, k2, k3⟩ := removeIdxs_spec
    (((matchesOf keys 0 l).map Prod.snd).insertionSort (· ≤ ·)).reverse keys
    (insertionSort_strict _ hnd)
    (fun j hj => by
      rw [List.mem_reverse, (List.perm_insertionSort _ _).mem_iff, hsnd, List.mem_filterMap] at hj
      obtain ⟨k, -, hk⟩ := hj
      exact (List.getElem?_eq_some_iff.1 (bsearch_sound hk)).1)
  have hkout : kout.Perm (out.map Prod.fst) := by
    rw [k3, hout]
    refine ((List.reverse_perm _).filterMap _).trans
      (((List.perm_insertionSort _ _).filterMap _).trans ?_)
    rw [hsnd, List.map_reverse]
    refine List.Perm.trans (List.Perm.of_eq ?_) (List.reverse_perm _).symm
    rw [List.filterMap_filterMap]
    clear hsnd hnd k1 k2 k3 o1 o2 o3 hout f1 f2 hd h
    induction l with
    | nil => rfl
    | cons e l ih =>
      simp only [List.map_cons, List.filterMap_cons, List.filter_cons]
      cases hb : bsearch keys e.1 with
      | none => simpa using ih
      | some j => simpa [bsearch_sound hb] using ih
  have hmem : ∀ e ∈ out, e ∈ l ∧ e.1 ∈ keys := by
    intro e he
    rw [hout, List.mem_reverse, List.mem_filter] at he
    refine ⟨he.1, ?_⟩
    obtain ⟨j, hj⟩ := Option.isSome_iff_exists.1 he.2
    exact List.mem_of_getElem? (bsearch_sound hj)
  have hfound : ∀ k ∈ ks, HasKey l k → HasKey out k := by
    intro k hk ⟨v, hv⟩
    refine ⟨v, ?_⟩
    rw [hout, List.mem_reverse, List.mem_filter]
    refine ⟨hv, ?_⟩
    cases hb : bsearch keys k with
    | none => exact absurd (hkp.symm.subset hk) (bsearch_none hsorted hb)
    | some j => simp
  have hkeyperm : (out.map Prod.fst ++ krest).Perm ks := by perms [hkout, k2, hkp]
  obtain ⟨c', g1, g2, g3⟩ := h.rewrite o2
  unfold takeMultiple
  rw [h.read hlaw]
  simp only [← hkeys, o1, k1, Res.ok_bind]
  by_cases hnil : out = []
  · rw [if_pos hnil]
    exact ⟨out, krest, c, l, rfl, h, rfl, by simp [hnil], fun e he => hkp.subset (hmem e he).2,
      hfound, hkeyperm⟩
  · rw [if_neg hnil, g1]
    exact ⟨out, krest, c', rest, rfl, g2, g3, o2, fun e he => hkp.subset (hmem e he).2, hfound, hkeyperm⟩

end Compressed
end Byoc
