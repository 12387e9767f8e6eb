import Verif.Proofs.Compressed

/-!
# Properties of `Compressed`: C28, C29, C30
-/

namespace Byoc
namespace CompressedProps

variable {K V : Type} [LinearOrder K]

/-- Reading costs nothing; a value written serialises, to at most as many bytes as the old one. -/
def NoLonger (cd : VecCodec (K × V)) (f : V → V) : Prop :=
  ∀ k v, cd.enc (k, v) ≠ none → cd.enc (k, f v) ≠ none ∧ cd.size (k, f v) ≤ cd.size (k, v)

section
open Compressed
variable {z : Lz4} {cd : VecCodec (K × V)} {srt srtU : Sorter (K × V)}

/-- The container contract among states with distinct keys. -/
theorem mapLawful (hlaw : cd.Law) : MapLawful (compressed z cd srt srtU) (compressedGet z cd srt srtU)
    (fun c => Compressed.Inv z cd c ∧ ((Compressed.elems z cd c).map Prod.fst).Nodup)
    (Compressed.elems z cd) (fun f => f = id) (NoLonger cd) := by
  have nd : ∀ {l l' out : List (K × V)}, (l' ++ out).Perm l → (l.map Prod.fst).Nodup →
      (l'.map Prod.fst).Nodup := by
    intro l l' out hp hn
    have := (hp.map Prod.fst).nodup_iff.2 hn
    rw [List.map_append] at this
    exact (List.nodup_append.1 this).1
  refine { bounded := ?_, empty_size := ?_, contains := ?_, take := ?_, takeMultiple := ?_, push := ?_,
           flush := ?_, pop := ?_, distinct := fun s hs => hs.2, pushFresh := ?_, get := ?_, getMut := ?_ }
  · intro s hs
    exact (hs.1.holds hlaw).bounded
  · intro s hs he
    have := (hs.1.holds hlaw).size
    rw [if_pos he] at this; exact this
  · intro s k hs
    exact ⟨_, s, rfl, hs, rfl, rfl, rfl, contains_spec hlaw (hs.1.holds hlaw) k⟩
  · intro s k hs
    obtain ⟨o, c', l', h1, h2, h3, h4⟩ := take_spec hlaw (hs.1.holds hlaw) k
    have he := h2.elems hlaw
    refine ⟨o, c', h1, ⟨⟨l', h2⟩, ?_⟩, h3, ?_⟩
    · rw [he]
      cases o with
      | none => rw [h4.2]; exact hs.2
      | some e => exact nd (out := [e]) (by have := h4.2; perms [this]) hs.2
    · rw [he]
      cases o with
      | none => exact ⟨h4.1, by rw [h4.2]⟩
      | some e => exact h4
  · intro s ks hs
    obtain ⟨out, ks', c', l', h1, h2, h3, h4, h5, h6, h7⟩ :=
      takeMultiple_spec hlaw (hs.1.holds hlaw) hs.2 ks
    have he := h2.elems hlaw
    refine ⟨out, ks', c', h1, ⟨⟨l', h2⟩, by rw [he]; exact nd h4 hs.2⟩, h3, by rw [he]; exact h4, h5, h6,
      (List.sublist_append_right _ _).subperm.trans h7.subperm, ?_⟩
    intro k hk hn
    have := h7.symm.subset hk
    rcases List.mem_append.1 this with h | h
    · exact absurd (hasKey_iff_mem_map.2 h) hn
    · exact h
  · intro s l hs hf; exact hf.elim
  · intro s hs
    obtain ⟨c', h1, h2, h3⟩ := flush_spec hlaw (hs.1.holds hlaw)
    have he := h2.elems hlaw
    exact ⟨_, c', h1, ⟨⟨[], h2⟩, by rw [he]; simp⟩, h3, by rw [he]; simp⟩
  · intro s n hs
    obtain ⟨out, c', l', h1, h2, h3, h4, h5, -⟩ := pop_spec hlaw srt (hs.1.holds hlaw) n
    have he := h2.elems hlaw
    exact ⟨out, c', h1, ⟨⟨l', h2⟩, by rw [he]; exact nd h4 hs.2⟩, h3, by rw [he]; exact h4,
      by rw [he]; exact h5⟩
  · intro s l hs hn
    obtain ⟨out, c', l', h1, h2, h3, h4⟩ := push_spec hlaw srtU (hs.1.holds hlaw) l
    have he := h2.elems hlaw
    exact ⟨out, c', h1, ⟨⟨l', h2⟩, by rw [he]; exact nd h4 hn⟩, h3, by rw [he]; exact h4⟩
  · intro s k f hs hf
    obtain ⟨o, h1, h2⟩ := get_spec hlaw (hs.1.holds hlaw) k f
    refine ⟨o, s, h1, hs, rfl, ?_⟩
    subst hf
    cases o with
    | none => exact ⟨h2, List.Perm.refl _⟩
    | some v =>
      obtain ⟨a, b, hab⟩ := List.append_of_mem h2
      refine ⟨a ++ b, ?_, ?_⟩ <;> rw [hab] <;> exact List.perm_middle
  · intro s k f hs hf
    obtain ⟨o, c', l', h1, h2, h3, h4⟩ := getMut_spec hlaw (hs.1.holds hlaw) k f hf
    have he := h2.elems hlaw
    refine ⟨o, c', h1, ⟨⟨l', h2⟩, ?_⟩, h3, ?_⟩
    · rw [he]
      cases o with
      | none => rw [h4.2]; exact hs.2
      | some v =>
        obtain ⟨r, r1, r2⟩ := h4
        exact ((r2.map Prod.fst).trans (by simpa using (r1.map Prod.fst).symm)).nodup_iff.2 hs.2
    · rw [he]
      cases o with
      | none => exact ⟨h4.1, by rw [h4.2]⟩
      | some v => exact h4

omit [LinearOrder K] in
theorem new_holds (n : Nat) : Holds z cd (Compressed.new n) ([] : List (K × V)) :=
  ⟨by simp, by simp [Compressed.new, VecStream.new]⟩

theorem contents_eq (hlaw : cd.Law) {c : Compressed} {l : List (K × V)} (h : Holds z cd c l) :
    (compressed z cd srt srtU).contents c = l := by
  obtain ⟨c', h1, -⟩ := flush_spec hlaw h
  simp [Block.contents, compressed, h1]

end

/-- A call other than `take_multiple`. -/
def Single : Op K V → Prop
  | .takeMultiple _ => False
  | _ => True

section
open Compressed
variable {z : Lz4} {cd : VecCodec (K × V)} {srt srtU : Sorter (K × V)}

theorem step_single (hlaw : cd.Law) {c : Compressed} {l : List (K × V)} (h : Holds z cd c l)
    (op : Op K V) (hop : Single op) :
    ∃ out c' l', (compressed z cd srt srtU).step c op = .ok (out, c') ∧ Holds z cd c' l' ∧
      c'.capacity = c.capacity ∧ (l' ++ out).Perm (l ++ op.given) := by
  cases op with
  | contains k => exact ⟨[], c, l, by simp [Block.step, compressed], h, rfl, by simp [Op.given]⟩
  | take k =>
    obtain ⟨o, c', l', h1, h2, h3, h4⟩ := take_spec hlaw h k
    refine ⟨o.toList, c', l', by simp [Block.step, compressed, h1], h2, h3, ?_⟩
    cases o with
    | none => simp [Op.given, h4.2]
    | some e =>
      have h5 := h4.2
      simp only [Op.given, Option.toList]
      perms [h5]
  | takeMultiple ks => exact hop.elim
  | pop n =>
    obtain ⟨out, c', l', h1, h2, h3, h4, -⟩ := pop_spec hlaw srt h n
    exact ⟨out, c', l', by simp [Block.step, compressed, h1], h2, h3, by simpa [Op.given] using h4⟩
  | push v =>
    obtain ⟨out, c', l', h1, h2, h3, h4⟩ := push_spec hlaw srtU h v
    exact ⟨out, c', l', by simp [Block.step, compressed, h1], h2, h3, h4⟩
  | flush =>
    obtain ⟨c', h1, h2, h3⟩ := flush_spec hlaw h
    exact ⟨l, c', [], by simp [Block.step, compressed, h1], h2, h3, by simp [Op.given]⟩

theorem run_single (hlaw : cd.Law) (ops : List (Op K V)) (hops : ∀ op ∈ ops, Single op) :
    ∀ (c : Compressed) (l : List (K × V)), Holds z cd c l →
    ∃ out c' l', (compressed z cd srt srtU).run c ops = .ok (out, c') ∧ Holds z cd c' l' ∧
      c'.capacity = c.capacity ∧ (l' ++ out).Perm (l ++ ops.flatMap Op.given) := by
  induction ops with
  | nil => intro c l h; exact ⟨[], c, l, rfl, h, rfl, by simp⟩
  | cons op ops ih =>
    intro c l h
    obtain ⟨o1, c1, l1, h1, h2, h3, h4⟩ := step_single hlaw h op (hops op (by simp))
    obtain ⟨o2, c2, l2, g1, g2, g3, g4⟩ := ih (fun o ho => hops o (by simp [ho])) c1 l1 h2
    refine ⟨o1 ++ o2, c2, l2, by simp [Block.run, h1, g1], g2, g3.trans h3, ?_⟩
    simp only [List.flatMap_cons]
    perms [h4, g4]
end

/-! ## C28 -/

/-- **C28 in full**: whatever is called, nothing panics and the size stays below the capacity. -/
def C28_full : Prop := ∀ (K V : Type) (_ : LinearOrder K) (z : Lz4) (cd : VecCodec (K × V)), cd.Law →
  ∀ (srt srtU : Sorter (K × V)) (n : Nat) (ops : List (Op K V)),
    ∃ out s, (compressed z cd srt srtU).run (Compressed.new n) ops = .ok (out, s) ∧
      (compressed z cd srt srtU).size s ≤ n ∧ (compressed z cd srt srtU).capacity s = n

/-- **C28, all calls but `take_multiple`**, whatever is pushed. -/
theorem C28_partial (z : Lz4) (cd : VecCodec (K × V)) (hlaw : cd.Law) (srt srtU : Sorter (K × V))
    (n : Nat) (ops : List (Op K V)) (hops : ∀ op ∈ ops, Single op) :
    ∃ out s, (compressed z cd srt srtU).run (Compressed.new n) ops = .ok (out, s) ∧
      (compressed z cd srt srtU).size s ≤ n ∧ (compressed z cd srt srtU).capacity s = n ∧
      (compressed z cd srt srtU).size s =
        if (compressed z cd srt srtU).contents s = [] then 0
        else 8 + total cd.size ((compressed z cd srt srtU).contents s) := by
  obtain ⟨out, s, l, h1, h2, h3, -⟩ := run_single (z := z) (srt := srt) (srtU := srtU) hlaw ops hops
    _ _ (new_holds n)
  have hcap : s.capacity = n := h3
  refine ⟨out, s, h1, by rw [← hcap]; exact h2.bounded, hcap, ?_⟩
  rw [contents_eq hlaw h2]
  exact h2.size

/-- **C28, all calls and accesses**, for histories that never push a key already stored, and writes
through cells of values that are not longer. -/
theorem C28_partial_distinct (z : Lz4) (cd : VecCodec (K × V)) (hlaw : cd.Law)
    (srt srtU : Sorter (K × V)) (n : Nat) (cs : List (Call K V))
    (hcs : ∀ c ∈ cs, c.Within (fun f => f = id) (NoLonger cd))
    (hf : (compressed z cd srt srtU).FreshCalls (compressedGet z cd srt srtU)
      (compressed z cd srt srtU).contents (Compressed.new n) cs) :
    ∃ out s, (compressed z cd srt srtU).calls (compressedGet z cd srt srtU) (Compressed.new n) cs =
        .ok (out, s) ∧
      (compressed z cd srt srtU).size s ≤ n ∧ (compressed z cd srt srtU).capacity s = n ∧
      (((compressed z cd srt srtU).contents s ++ out).map Prod.fst).Perm
        ((cs.flatMap Call.given).map Prod.fst) := by
  have hm := mapLawful (z := z) (srt := srt) (srtU := srtU) hlaw
  have h0 : Compressed.Inv z cd (Compressed.new n) ∧
      ((Compressed.elems z cd (Compressed.new n)).map Prod.fst).Nodup :=
    ⟨⟨[], new_holds n⟩, by rw [(new_holds n).elems hlaw]; simp⟩
  -- `contents` and `elems` agree
  have hfe : ∀ (cs : List (Call K V)) (_ : ∀ c ∈ cs, c.Within (fun f => f = id) (NoLonger cd))
      (s : Compressed), (Compressed.Inv z cd s ∧
      ((Compressed.elems z cd s).map Prod.fst).Nodup) →
      (compressed z cd srt srtU).FreshCalls (compressedGet z cd srt srtU)
        (compressed z cd srt srtU).contents s cs →
      (compressed z cd srt srtU).FreshCalls (compressedGet z cd srt srtU)
        (Compressed.elems z cd) s cs := by
    intro cs
    induction cs with
    | nil => intro _ s _ _; trivial
    | cons c cs ih =>
      intro hcs s hs hf
      have he : (compressed z cd srt srtU).contents s = Compressed.elems z cd s :=
        contents_eq hlaw (hs.1.holds hlaw)
      have hf1 := hf.1
      rw [he] at hf1
      refine ⟨hf1, fun out s' hc => ?_⟩
      obtain ⟨o, s2, k1, k2, -⟩ := hm.call c (hcs c (by simp)) s hs (hf1 hs.2)
      rw [hc] at k1
      cases k1
      exact ih (fun x hx => hcs x (by simp [hx])) s' k2 (hf.2 out s' hc)
  obtain ⟨out, s, h1, h2, h3, h4, h5, -⟩ := hm.calls cs hcs _ h0 (hfe cs hcs _ h0 hf)
  refine ⟨out, s, h1, ?_, h4, ?_⟩
  · have : (compressed z cd srt srtU).capacity s = n := h4
    rw [this] at h3; exact h3
  · have he : (compressed z cd srt srtU).contents s = Compressed.elems z cd s :=
      contents_eq hlaw (h2.1.holds hlaw)
    rw [he]
    rw [(new_holds n).elems hlaw, List.nil_append] at h5
    exact h5

/-- **C28, longer values**: writing through a cell values that take the whole above the capacity panics
when the cell is dropped. -/
theorem C28_longer_write_panics (z : Lz4) (cd : VecCodec (K × V)) (hlaw : cd.Law)
    (srt srtU : Sorter (K × V)) (n : Nat) (k : K) (v w : V)
    (hv : cd.enc (k, v) ≠ none) (hfit : 8 + cd.size (k, v) ≤ n) (hbig : n < 8 + cd.size (k, w)) :
    ∃ s, (compressed z cd srt srtU).push (Compressed.new n) [(k, v)] = .ok ([], s) ∧
      (compressedGet z cd srt srtU).getMut s k (fun _ => w) = .panic := by
  obtain ⟨eb, e1, e2⟩ := cd.encode_some [(k, v)] (by simpa using hv)
  obtain ⟨c', g1, g2, g3⟩ := Compressed.write_spec (z := z) (Compressed.new n) [(k, v)]
    (by simpa using hv) (Or.inr (by simpa [Compressed.new] using hfit))
  simp only [total_cons, total_nil, Nat.add_zero] at e2
  refine ⟨c', ?_, ?_⟩
  · have hrb : (Compressed.new n).readBytes z = some [] := by
      simp [Compressed.readBytes, Compressed.new, VecStream.new, z.empty]
    have hcap : (Compressed.new n).capacity = n := rfl
    simp only [compressed, Compressed.push, hrb, if_true, e1, Res.sub, List.length_nil,
      Nat.zero_le, Nat.sub_zero, Res.ok_bind, hcap]
    rw [if_neg (by omega), if_pos (by omega)]
    simp only [List.nil_append, g1, Res.ok_bind, Res.pure_eq]
  · have hr := g2.read hlaw
    have hcap : c'.capacity = n := g3
    have hw := Compressed.write_refused (z := z) (cd := cd) c' [(k, w)] (by simp)
      (by simp only [total_cons, total_nil]; omega)
    simp [compressedGet, Compressed.getMut, hr, findKey, hw, List.findIdx?_cons]
    rfl

/-! ## C29 -/

/-- **C29.**  Histories of all calls but `take_multiple`, with any batches (duplicate keys,
unserialisable elements): what the container gives back on flush and what it handed out are what it was
given. -/
theorem C29_conserves (z : Lz4) (cd : VecCodec (K × V)) (hlaw : cd.Law) (srt srtU : Sorter (K × V))
    (n : Nat) (ops : List (Op K V)) (hops : ∀ op ∈ ops, Single op) :
    ∃ out s, (compressed z cd srt srtU).run (Compressed.new n) ops = .ok (out, s) ∧
      ((compressed z cd srt srtU).contents s ++ out).Perm (ops.flatMap Op.given) := by
  obtain ⟨out, s, l, h1, h2, h3, h4⟩ := run_single (z := z) (srt := srt) (srtU := srtU) hlaw ops hops
    _ _ (new_holds n)
  exact ⟨out, s, h1, by rw [contents_eq hlaw h2]; simpa using h4⟩

/-- **C29, one call** after such a history: `contains` and `take` agree with what is stored, `pop`
frees what is asked or empties the container, takes at least one element out of a non-empty
container, and evicts the greatest values. -/
theorem C29_calls (z : Lz4) (cd : VecCodec (K × V)) (hlaw : cd.Law) [LinearOrder V]
    (srt srtU : Sorter (K × V)) (hsrt : ∀ l, (srt.run l).Pairwise (fun a b => a.2 ≤ b.2))
    (n : Nat) (ops : List (Op K V)) (hops : ∀ op ∈ ops, Single op) (out : List (K × V))
    (s : Compressed)
    (hs : (compressed z cd srt srtU).run (Compressed.new n) ops = .ok (out, s)) :
    let B := compressed z cd srt srtU
    (∀ k, ∃ b, B.contains s k = .ok (b, s) ∧ (b = true ↔ HasKey (B.contents s) k)) ∧
    (∀ k, ∃ o s', B.take s k = .ok (o, s') ∧
      match o with
      | none => ¬ HasKey (B.contents s) k ∧ B.contents s' = B.contents s
      | some e => e.1 = k ∧ (e :: B.contents s').Perm (B.contents s)) ∧
    (∀ m, ∃ out s', B.pop s m = .ok (out, s') ∧ (B.contents s' ++ out).Perm (B.contents s) ∧
      (B.size s' + m ≤ B.size s ∨ B.contents s' = []) ∧ (B.contents s ≠ [] → out ≠ []) ∧
      ∀ e ∈ out, ∀ d ∈ B.contents s', d.2 ≤ e.2) ∧
    (∃ s', B.flush s = .ok (B.contents s, s') ∧ B.contents s' = [] ∧ B.size s' = 0) := by
  intro B
  obtain ⟨out', s', l, h1, h2, h3, -⟩ := run_single (z := z) (srt := srt) (srtU := srtU) hlaw ops hops
    _ _ (new_holds n)
  rw [hs] at h1
  cases h1
  have hc : B.contents s = l := contents_eq hlaw h2
  rw [hc]
  refine ⟨?_, ?_, ?_, ?_⟩
  · intro k
    exact ⟨_, rfl, Compressed.contains_spec hlaw h2 k⟩
  · intro k
    obtain ⟨o, c', l', k1, k2, k3, k4⟩ := Compressed.take_spec hlaw h2 k
    have hc' : B.contents c' = l' := contents_eq hlaw k2
    refine ⟨o, c', k1, ?_⟩
    rw [hc']; exact k4
  · intro m
    obtain ⟨o, c', l', k1, k2, k3, k4, k5, k6, k7⟩ := Compressed.pop_spec hlaw srt h2 m
    have hc' : B.contents c' = l' := contents_eq hlaw k2
    refine ⟨o, c', k1, ?_, ?_, k6, ?_⟩
    · rw [hc']; exact k4
    · rw [hc']; exact k5
    · rw [hc']
      intro e he d hd
      by_cases hl : l = []
      · subst hl
        have := k4.eq_nil
        rw [List.append_eq_nil_iff] at this
        rw [this.2] at he; simp at he
      · have := hsrt l
        rw [k7 hl] at this
        exact (List.pairwise_append.1 this).2.2 d hd e he
  · obtain ⟨c', k1, k2, k3⟩ := Compressed.flush_spec hlaw h2
    refine ⟨c', k1, contents_eq hlaw k2, ?_⟩
    have := k2.size
    rw [if_pos rfl] at this
    exact this

/-! ## C30 -/

/-- **C30 in full**: in every reachable state. -/
def C30_full : Prop := ∀ (K V : Type) (_ : LinearOrder K) (z : Lz4) (cd : VecCodec (K × V)), cd.Law →
  ∀ (srt srtU : Sorter (K × V)) (n : Nat) (s : Compressed),
    Reachable (compressed z cd srt srtU) (Compressed.new n) s → ∀ ks,
    ∃ out ks' s', (compressed z cd srt srtU).takeMultiple s ks = .ok (out, ks', s') ∧
      (∀ e ∈ out, e.1 ∈ ks) ∧
      ((compressed z cd srt srtU).contents s' ++ out).Perm ((compressed z cd srt srtU).contents s) ∧
      (∀ k ∈ ks, HasKey ((compressed z cd srt srtU).contents s) k → HasKey out k) ∧
      (out.map Prod.fst ++ ks').Subperm ks ∧ (∀ k ∈ ks, ¬ HasKey out k → k ∈ ks')

/-- **C30, when the stored keys are distinct** (the requested keys may have duplicates): the elements
with the requested keys are taken out, and exactly their keys are taken out of the key list. -/
theorem C30_partial (z : Lz4) (cd : VecCodec (K × V)) (hlaw : cd.Law) (srt srtU : Sorter (K × V))
    (n : Nat) (ops : List (Op K V)) (hops : ∀ op ∈ ops, Single op) (out : List (K × V))
    (s : Compressed) (hs : (compressed z cd srt srtU).run (Compressed.new n) ops = .ok (out, s))
    (hd : (((compressed z cd srt srtU).contents s).map Prod.fst).Nodup) (ks : List K) :
    ∃ out ks' s', (compressed z cd srt srtU).takeMultiple s ks = .ok (out, ks', s') ∧
      (∀ e ∈ out, e.1 ∈ ks) ∧
      ((compressed z cd srt srtU).contents s' ++ out).Perm ((compressed z cd srt srtU).contents s) ∧
      (∀ k ∈ ks, HasKey ((compressed z cd srt srtU).contents s) k → HasKey out k) ∧
      (out.map Prod.fst ++ ks').Perm ks := by
  obtain ⟨out', s', l, h1, h2, h3, -⟩ := run_single (z := z) (srt := srt) (srtU := srtU) hlaw ops hops
    _ _ (new_holds n)
  rw [hs] at h1
  cases h1
  rw [contents_eq hlaw h2] at hd ⊢
  obtain ⟨out, ks', c', l', k1, k2, k3, k4, k5, k6, k7⟩ := Compressed.takeMultiple_spec hlaw h2 hd ks
  exact ⟨out, ks', c', k1, k5, by rw [contents_eq hlaw k2]; exact k4, k6, k7⟩

/-! A codec on pairs of numbers below 256, as in the stream properties. -/

def parse : Nat → List UInt8 → Option (List (Nat × Nat))
  | _, [] => some []
  | 0, _ :: _ => none
  | n + 1, a :: b :: r => (parse n (r.drop b.toNat)).map ((a.toNat, b.toNat) :: ·)
  | _ + 1, [_] => none

def smallVec : VecCodec (Nat × Nat) where
  enc e := if e.1 < 256 ∧ e.2 < 256 then
    some (UInt8.ofNat e.1 :: UInt8.ofNat e.2 :: List.replicate e.2 7) else none
  dec b := parse b.length (b.drop 8)

theorem parse_body (l : List (Nat × Nat)) : ∀ b n, smallVec.body l = some b → b.length ≤ n →
    parse n b = some l := by
  induction l with
  | nil => intro b n h _; cases h; simp [parse]
  | cons e l ih =>
    intro b n h hn
    have he : e.1 < 256 ∧ e.2 < 256 := by
      by_contra hc; simp [VecCodec.body, smallVec, hc] at h
    cases hb : smallVec.body l with
    | none => simp [VecCodec.body, hb] at h
    | some bs =>
      have : b = UInt8.ofNat e.1 :: UInt8.ofNat e.2 :: List.replicate e.2 7 ++ bs := by
        have hen : smallVec.enc e =
            some (UInt8.ofNat e.1 :: UInt8.ofNat e.2 :: List.replicate e.2 7) := if_pos he
        simp only [VecCodec.body, hb, hen] at h
        simpa using h.symm
      subst this
      cases n with
      | zero => simp at hn
      | succ n =>
        have h2 : (UInt8.ofNat e.2).toNat = e.2 := by simp; omega
        have h1 : (UInt8.ofNat e.1).toNat = e.1 := by simp; omega
        simp only [List.cons_append, parse, h1, h2]
        have : (List.replicate e.2 (7 : UInt8) ++ bs).drop e.2 = bs := by
          conv_lhs => rw [← List.length_replicate (n := e.2) (a := (7 : UInt8))]
          simp
        simp only [List.length_cons, List.cons_append, List.length_append] at hn
        rw [this, ih bs n hb (by omega)]
        rfl

theorem smallVec_law : smallVec.Law := by
  intro l b h
  cases hb : smallVec.body l with
  | none => simp [VecCodec.encode, hb] at h
  | some bs =>
    simp only [VecCodec.encode, hb] at h
    have : b = VecCodec.header l.length ++ bs := by simpa using h.symm
    subst this
    have hd : (VecCodec.header l.length ++ bs).drop 8 = bs := by
      conv_lhs => rw [← VecCodec.header_length l.length]
      simp
    simp only [smallVec, hd]
    exact parse_body l bs _ hb (by simp)

/-- No compression at all. -/
def noComp : Lz4 := ⟨id, some, fun _ => rfl, rfl⟩

/-- Sorting by value. -/
def byValue : Sorter (Nat × Nat) := Sorter.ofLe (fun a b => a.2 ≤ b.2)

abbrev Ex := compressed noComp smallVec byValue byValue

/-- **C30, duplicate keys**: with the same key stored twice, `take_multiple` panics. -/
theorem C30_panics : ((Ex.push (Compressed.new 100) [(1, 0), (1, 2)]).bind fun r =>
    (Ex.takeMultiple r.2 [1]).bind fun q => .ok q.1) = .panic := by decide +kernel

/-- **C30, duplicate keys**: or it drops a key that was not found from the key list. -/
theorem C30_drops_key : ((Ex.push (Compressed.new 100) [(1, 0), (1, 2)]).bind fun r =>
    (Ex.takeMultiple r.2 [1, 5]).bind fun q => .ok (q.1, q.2.1)) = .ok ([(1, 2), (1, 0)], []) := by
  decide +kernel

theorem C30_false : ¬ C30_full := by
  intro h
  have hp := C30_panics
  cases hq : Ex.push (Compressed.new 100) [(1, 0), (1, 2)] with
  | panic =>
    have : (Ex.push (Compressed.new 100) [(1, 0), (1, 2)]).bind (fun r => .ok r.1) = .ok [] := by
      decide +kernel
    rw [hq] at this; simp [Res.bind] at this
  | ok r =>
    obtain ⟨o, s⟩ := r
    rw [hq] at hp
    simp only [Res.bind] at hp
    split at hp
    · simp at hp
    clear hp; rename_i hp
    obtain ⟨out, ks', s', h1, -⟩ := h _ _ _ noComp smallVec smallVec_law byValue byValue 100 s
      ⟨[.push [(1, 0), (1, 2)]], o, by simp [Block.run, Block.step, hq]⟩ [1]
    rw [hp] at h1
    cases h1

theorem C28_false : ¬ C28_full := by
  intro h
  obtain ⟨out, s, h1, -⟩ := h _ _ _ noComp smallVec smallVec_law byValue byValue 100
    [.push [(1, 0), (1, 2)], .takeMultiple [1]]
  have hp := C30_panics
  simp only [Block.run, Block.step] at h1
  cases hq : Ex.push (Compressed.new 100) [(1, 0), (1, 2)] with
  | panic => rw [hq] at h1; simp at h1
  | ok r =>
    obtain ⟨o, s⟩ := r
    rw [hq] at hp h1
    simp only [Res.bind] at hp
    split at hp
    · simp at hp
    clear hp; rename_i hp
    simp [hp] at h1

/-- Pushing nothing may evict an element: there must be room for the length of the new vector. -/
theorem C29_push_nothing_evicts :
    ((Ex.push (Compressed.new 18) [(1, 2), (2, 0)]).bind fun r =>
      (Ex.push r.2 []).bind fun q => .ok (r.1, Ex.size r.2, q.1, Ex.size q.2)) =
    .ok ([], 14, [(1, 2)], 10) := by decide +kernel

/-- A history of `C28_partial_distinct`: non-trivial calls, the last write shortens a value. -/
example : (Ex.calls (compressedGet noComp smallVec byValue byValue) (Compressed.new 20)
    [.op (.push [(1, 2), (2, 4)]), .get 1 id, .getMut 1 (fun _ => 1), .op (.takeMultiple [2, 3]),
     .op (.push [(4, 5)])]).bind (fun r => .ok (r.1, Ex.contents r.2)) =
    .ok ([(2, 4), (1, 1)], [(4, 5)]) := by decide +kernel

example : Ex.FreshCalls (compressedGet noComp smallVec byValue byValue) Ex.contents
    (Compressed.new 20) [.op (.push [(1, 2), (2, 4)]), .op (.takeMultiple [2, 3]),
      .getMut 1 (fun _ => 0)] := by
  have hm : (Ex.contents (Compressed.new 20)) = [] := by decide +kernel
  refine ⟨fun _ => by rw [hm]; decide, fun out s' _ => ⟨fun h => by simpa [Call.given, Op.given] using h,
    fun _ s'' _ => ⟨fun h => by simpa [Call.given] using h, fun _ _ _ => trivial⟩⟩⟩

end CompressedProps
end Byoc
