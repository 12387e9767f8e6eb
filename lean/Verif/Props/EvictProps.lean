import Verif.Props.ArrayProps
import Verif.Props.BTreeProps
import Verif.Props.CompressedProps

/-!
# C69, C70: what `push` evicts, for any element sizes

C69: `Array` and `BTree`.  C70: `Compressed`.
-/

set_option linter.unusedSectionVars false

namespace Byoc
namespace EvictProps

variable {K V : Type}

/-- No kept value is above an evicted one. -/
def Greatest [LE V] (kept victims : List (K × V)) : Prop :=
  ∀ x ∈ kept, ∀ y ∈ victims, x.2 ≤ y.2

/-- Nothing is evicted, or the evicted element of least value would not fit beside what is kept and
what is added (and `over` bytes more). -/
def NoMoreThanNeeded [LE V] (sz : K × V → Nat) (capacity : Nat) (kept victims added : List (K × V))
    (over : Nat := 0) : Prop :=
  victims = [] ∨ ∃ x rest, victims.Perm (x :: rest) ∧ (∀ y ∈ rest, x.2 ≤ y.2) ∧
    capacity < over + total sz kept + sz x + total sz added

theorem least_exists [LinearOrder V] : ∀ (l : List (K × V)), l ≠ [] →
    ∃ x rest, l.Perm (x :: rest) ∧ ∀ y ∈ rest, x.2 ≤ y.2 := by
  intro l
  induction l with
  | nil => intro h; exact absurd rfl h
  | cons a l ih =>
    intro _
    by_cases hl : l = []
    · subst hl; exact ⟨a, [], List.Perm.refl _, by simp⟩
    · obtain ⟨x, rest, h1, h2⟩ := ih hl
      rcases le_total a.2 x.2 with h | h
      · refine ⟨a, l, List.Perm.refl _, fun y hy => ?_⟩
        rcases List.mem_cons.1 (h1.subset hy) with rfl | hy
        · exact h
        · exact h.trans (h2 y hy)
      · refine ⟨x, a :: rest, by perms [h1], fun y hy => ?_⟩
        rcases List.mem_cons.1 hy with rfl | hy
        · exact h
        · exact h2 y hy

/-- All the elements evicted, positive sizes, and the rest already takes the whole capacity. -/
theorem noMore_all [LinearOrder V] {sz : K × V → Nat} {n : Nat} {old added : List (K × V)}
    (hpos : ∀ e ∈ old, 0 < sz e) (h : n ≤ total sz added) :
    NoMoreThanNeeded sz n [] old added := by
  by_cases ho : old = []
  · exact Or.inl ho
  · obtain ⟨x, rest, h1, h2⟩ := least_exists old ho
    refine Or.inr ⟨x, rest, h1, h2, ?_⟩
    have := hpos x (h1.symm.subset (by simp))
    simp; omega

/-- A cut of a sorted list. -/
theorem noMore_cut [LinearOrder V] {sz : K × V → Nat} {n m : Nat} {p q added : List (K × V)}
    (hs : (p ++ q).Pairwise (fun a b => a.2 ≤ b.2)) (hq : q ≠ [])
    (hmin : ∀ x q', q = x :: q' → q' = [] ∨ total sz q' < m) (hm : 0 < m)
    {over : Nat} (hn : n + m = over + total sz p + total sz q + total sz added) :
    Greatest p q ∧ NoMoreThanNeeded sz n p q added over := by
  rw [List.pairwise_append] at hs
  refine ⟨hs.2.2, ?_⟩
  cases q with
  | nil => exact absurd rfl hq
  | cons x q' =>
    refine Or.inr ⟨x, q', List.Perm.refl _, (List.pairwise_cons.1 hs.2.1).1, ?_⟩
    have : total sz q' < m := by
      rcases hmin x q' rfl with h | h
      · subst h; simpa using hm
      · exact h
    simp only [total_cons] at hn
    omega

section Array
variable [LinearOrder K] [LinearOrder V]

/-- **C69 (Array).**  For elements of positive sizes: a batch no larger than the capacity is stored
whole, at the expense of old elements of greatest values, no more than needed; of a larger batch, all
old elements and some new ones of greatest values, no more than needed, are handed back. -/
theorem C69_array_push_minimal (sz : K × V → Nat) (srt srtS : Sorter (K × V))
    (h1 : ArrayProps.ByValue srt) (h2 : ArrayProps.ByValue srtS) (n : Nat) (s : Array K V)
    (hr : Reachable (arrayBlock sz srt srtS) (Array.new n) s) (l : List (K × V))
    (hpos : ∀ e ∈ (arrayBlock sz srt srtS).contents s, 0 < sz e) :
    let B := arrayBlock sz srt srtS
    ∃ out s', B.push s l = .ok (out, s') ∧
      (total sz l ≤ n → ∃ kept, (B.contents s').Perm (kept ++ l) ∧ (kept ++ out).Perm (B.contents s) ∧
        Greatest kept out ∧ NoMoreThanNeeded sz n kept out l) ∧
      (n < total sz l → ∃ rejected, out.Perm (B.contents s ++ rejected) ∧
        (B.contents s' ++ rejected).Perm l ∧ Greatest (B.contents s') rejected ∧
        NoMoreThanNeeded sz n (B.contents s') rejected []) := by
  intro B
  have hI := (Array.lawful sz srt srtS).reachable (Array.new_inv sz n) hr
  have hcap : s.capacity = n := by
    obtain ⟨ops, out, hrun⟩ := hr
    obtain ⟨o, s', g1, -, -, g4, -⟩ := (Array.lawful sz srt srtS).run ops
      (fun op _ => ArrayProps.okTrue op) (Array.new n) (Array.new_inv sz n)
    rw [hrun] at g1; cases g1; exact g4
  have hcon : ∀ a : Array K V, B.contents a = a.values := fun a => rfl
  have hsz : s.totalSize = total sz s.values := hI.1
  replace hpos : ∀ e ∈ s.values, 0 < sz e := hpos
  rcases Array.push_cases sz srt srtS s l hI with ⟨g1, g2⟩ | ⟨g1, g2, g3⟩ |
    ⟨g1, p, q, g2, g3, g4, g5, g6⟩ | ⟨g1, g2, out, a', g3, g4⟩
  · refine ⟨_, _, g2, fun _ => ⟨s.values, List.Perm.refl _, by rw [List.append_nil]; exact List.Perm.refl _,
      by simp [Greatest], Or.inl rfl⟩,
      fun h => by omega⟩
  · refine ⟨_, _, g3, fun _ => ⟨[], List.Perm.refl _, List.Perm.refl _, by simp [Greatest], noMore_all hpos (by omega)⟩,
      fun h => by omega⟩
  · have hp : (p ++ q).Perm l := by rw [← g2]; exact srtS.perm l
    have ht := total_perm sz hp
    rw [total_append] at ht
    refine ⟨_, _, g6, fun h => by omega, fun _ => ⟨q, List.Perm.refl _, hp, ?_⟩⟩
    exact noMore_cut (p := p) (over := 0) (m := total sz l - s.capacity) (by rw [← g2]; exact h2 l) g3 g5 (by omega)
      (by simp; omega)
  · refine ⟨_, _, g4, fun _ => ?_, fun h => by omega⟩
    have hb := hI.2
    rcases Array.pop_cases sz srt s (total sz l - (s.capacity - s.totalSize)) hI with ⟨k1, k2⟩ | ⟨k1, k2, k3⟩ | ⟨k1, k2, p, q, k3, k4, k5, k6, k7⟩
    · rw [k1] at hsz; simp at hsz; omega
    · omega
    · rw [k7] at g3; cases g3
      have hp : (p ++ out).Perm s.values := by rw [← k3]; exact srt.perm _
      have ht := total_perm sz hp
      rw [total_append] at ht
      refine ⟨p, List.Perm.refl _, hp, ?_⟩
      exact noMore_cut (p := p) (over := 0) (m := total sz l - (s.capacity - s.totalSize)) (by rw [← k3]; exact h1 _) k4 k6
        (by omega) (by omega)

end Array

section BTree
variable [LinearOrder K] [LinearOrder V]

/-- Below the capacity: the elements with the pushed keys are taken out, then room is made. -/
theorem btree_push_split (sz : K × V → Nat) (t : BTree K V) (l : List (K × V)) (h : BTree.Inv sz t)
    (hl : (l.map Prod.fst).Nodup) (hlt : total sz l < t.capacity) :
    ∃ replaced victims t1 t2 t', t.push sz l = .ok (replaced ++ victims, t') ∧ BTree.WInv sz t1 ∧
      t1.capacity = t.capacity ∧
      (t1.map ++ replaced).Perm t.map ∧ (∀ k ∈ l.map Prod.fst, ¬ HasKey t1.map k) ∧
      (∀ e ∈ replaced, e.1 ∈ l.map Prod.fst) ∧ (t2.map ++ victims).Perm t1.map ∧
      t'.map.Perm (t2.map ++ l) ∧
      ((t1.totalSize + total sz l ≤ t.capacity ∧ victims = []) ∨
       (t.capacity < t1.totalSize + total sz l ∧
        t1.pop sz (total sz l - (t1.capacity - t1.totalSize)) = .ok (victims, t2))) := by
  obtain ⟨out, t1, h1, h2, h3, h4, h5, h6, h7⟩ := BTree.takeMany_spec sz (l.map Prod.fst) t h.1
  have hle : t1.totalSize ≤ t1.capacity := by have := h.2; omega
  have hc : ¬ total sz l ≥ t.capacity := by omega
  have fin : ∀ t2 : BTree K V, BTree.WInv sz t2 → (∃ o, (t2.map ++ o).Perm t1.map) →
      (t2.insertUnchecked l).map.Perm (t2.map ++ l) := by
    rintro t2 hw ⟨o, ho⟩
    refine (BTree.insert_spec l t2 hw.agree hw.mapSorted hw.setSorted ?_).2.2.2.1
    refine BTree.nodup_append_keys hw.nodup hl ?_
    rintro k hk ⟨v, hv⟩
    exact h6 k hk ⟨v, ho.mem_iff.1 (List.mem_append_left _ hv)⟩
  by_cases hr : t1.capacity - t1.totalSize < total sz l
  · obtain ⟨out', t2, p1, p2, p3, p4, p5⟩ :=
      BTree.pop_spec sz t1 (total sz l - (t1.capacity - t1.totalSize)) h2
    refine ⟨out, out', t1, t2,
      { t2.insertUnchecked l with totalSize := (t2.insertUnchecked l).totalSize + total sz l }, ?_, h2, h3, h5, h6, h7, p4, fin t2 p2 ⟨_, p4⟩,
      Or.inr ⟨by omega, p1⟩⟩
    simp only [BTree.push, hc, if_false, h1, Res.ok_bind, Res.sub_ok hle, hr, if_true, p1]
    rfl
  · refine ⟨out, [], t1, t1,
      { t1.insertUnchecked l with totalSize := (t1.insertUnchecked l).totalSize + total sz l }, ?_, h2, h3, h5, h6, h7, by simp, fin t1 h2 ⟨[], by simp⟩,
      Or.inl ⟨by omega, rfl⟩⟩
    simp only [BTree.push, hc, if_false, h1, Res.ok_bind, Res.sub_ok hle, hr]
    rfl

/-- What `pop` takes from a `BTree`. -/
theorem btree_pop_minimal {sz : K × V → Nat} {t t' : BTree K V} {m n : Nat} {out added : List (K × V)}
    (h : BTree.WInv sz t) (hp : t.pop sz m = .ok (out, t')) (hm : 0 < m)
    (hn : n + m = t.totalSize + total sz added) (hpos : ∀ e ∈ t.map, 0 < sz e) :
    Greatest t'.map out ∧ NoMoreThanNeeded sz n t'.map out added := by
  have hs := h.size
  rcases BTree.pop_cases sz t m h with ⟨k1, k2⟩ | ⟨k1, k2, k3⟩ |
    ⟨k1, k2, p, q, t2, k3, k4, k5, k6, k7, k8, k9, k10, k11⟩
  · rw [k2] at hp; cases hp
    exact ⟨by simp [Greatest], Or.inl rfl⟩
  · rw [k3] at hp; cases hp
    exact ⟨by simp [Greatest], noMore_all hpos (by omega)⟩
  · rw [k7] at hp; cases hp
    have hsort : (p ++ out).Pairwise (fun a b => a.2 ≤ b.2) := by
      have := h.setSorted
      rw [k3, ← List.map_append, List.pairwise_map] at this
      refine this.imp fun {a b} hab => ?_
      rcases hab with h | h
      · exact h.le
      · exact h.1.le
    have ht := total_perm sz k10
    rw [total_append, total_perm sz k11] at ht
    obtain ⟨g1, g2⟩ := noMore_cut (n := n) (m := m) (over := 0) (added := added) hsort k4 k6 hm (by omega)
    refine ⟨fun x hx => g1 x (k11.mem_iff.1 hx), ?_⟩
    unfold NoMoreThanNeeded
    rw [total_perm sz k11]
    exact g2

/-- **C69 (BTree).**  A batch of distinct keys no larger than the capacity is stored whole; handed back
are the old elements with these keys and, for elements of positive size, other elements of greatest
values, no more than needed.  A larger batch replaces everything and the new elements of greatest
values, no more than needed, are handed back. -/
theorem C69_btree_push_minimal (sz : K × V → Nat) (n : Nat) (s : BTree K V)
    (hr : BTreeProps.ReachedFrom sz n s) (l : List (K × V)) (hl : (l.map Prod.fst).Nodup)
    (hpos : ∀ e ∈ (btreeBlock sz).contents s, 0 < sz e) (hposl : ∀ e ∈ l, 0 < sz e) :
    let B := btreeBlock sz
    ∃ out s', B.push s l = .ok (out, s') ∧
      (total sz l ≤ n → ∃ kept replaced victims, (B.contents s').Perm (kept ++ l) ∧
        out.Perm (replaced ++ victims) ∧ (kept ++ victims ++ replaced).Perm (B.contents s) ∧
        (∀ e ∈ replaced, e.1 ∈ l.map Prod.fst) ∧ (∀ e ∈ kept ++ victims, e.1 ∉ l.map Prod.fst) ∧
        Greatest kept victims ∧ NoMoreThanNeeded sz n kept victims l) ∧
      (n < total sz l → ∃ rejected, out.Perm (B.contents s ++ rejected) ∧
        (B.contents s' ++ rejected).Perm l ∧ Greatest (B.contents s') rejected ∧
        NoMoreThanNeeded sz n (B.contents s') rejected []) := by
  intro B
  obtain ⟨hI, hc⟩ := hr.inv
  replace hpos : ∀ e ∈ s.map, 0 < sz e := hpos
  have hpart : ∃ repl rest : List (K × V), (rest ++ repl).Perm s.map ∧
      (∀ e ∈ repl, e.1 ∈ l.map Prod.fst) ∧ ∀ e ∈ rest, e.1 ∉ l.map Prod.fst := by
    refine ⟨s.map.filter (fun e => decide (e.1 ∈ l.map Prod.fst)),
      s.map.filter (fun e => !decide (e.1 ∈ l.map Prod.fst)), ?_, ?_, ?_⟩
    · exact List.perm_append_comm.trans (List.filter_append_perm _ _)
    · intro e he; simpa using (List.mem_filter.1 he).2
    · intro e he; simpa using (List.mem_filter.1 he).2
  by_cases hlt : total sz l < n
  · obtain ⟨repl, vic, t1, t2, t', p1, p2, p3, p4, p5, p6, p7, p8, p9⟩ :=
      btree_push_split sz s l hI hl (by omega)
    refine ⟨_, t', p1, fun _ => ⟨t2.map, repl, vic, p8, List.Perm.refl _, ?_, p6, ?_, ?_⟩,
      fun h => by omega⟩
    · change (t2.map ++ vic ++ repl).Perm s.map
      perms [p4, p7]
    · intro e he hk
      exact p5 e.1 hk ⟨e.2, p7.mem_iff.1 he⟩
    · rcases p9 with ⟨q1, q2⟩ | ⟨q1, q2⟩
      · subst q2; exact ⟨by simp [Greatest], Or.inl rfl⟩
      · have hle : t1.totalSize ≤ t1.capacity := by
          have hb := hI.2
          have := total_perm sz p4
          rw [total_append, ← p2.size, ← hI.1.size] at this
          omega
        exact btree_pop_minimal p2 q2 (by omega) (by omega)
          (fun e he => hpos e (p4.mem_iff.1 (by simp [he])))
  · by_cases heq : total sz l = n
    · obtain ⟨repl, rest, r1, r2, r3⟩ := hpart
      obtain ⟨out, s', h1, h2, h3, h4, h5, h6⟩ := BTree.push_cases sz s l hI hl
      have hout : out = s.map := by
        have : total sz l ≥ s.capacity := by omega
        have h2 : ¬ (total sz l > s.capacity) := by omega
        have hcap := (BTree.insert_spec l (s.flush).2 (by simp [BTree.flush]) (by simp [BTree.flush])
          (by simp [BTree.flush]) (by simpa [BTree.flush] using hl)).2.2.2.2.1
        have hcap : ((s.flush).2.insertUnchecked l).capacity = s.capacity := hcap
        simp only [BTree.push, this, if_true, hcap, h2, if_false, Res.pure_eq] at h1
        cases h1
        rfl
      refine ⟨out, s', h1, fun _ => ⟨[], repl, rest, ?_, ?_, ?_, r2, ?_, ?_, ?_⟩, fun h => by omega⟩
      · subst hout
        have : (s'.map ++ s.map).Perm (l ++ s.map) := by perms [h4]
        exact (List.perm_append_right_iff _).1 this
      · subst hout; perms [r1]
      · change ([] ++ rest ++ repl).Perm s.map
        simpa using r1
      · simpa using r3
      · simp [Greatest]
      · exact noMore_all (fun e he => hpos e (r1.subset (by simp [he]))) (by omega)
    · -- larger than the capacity
      obtain ⟨out, s', h1, h2, h3, h4, h5, h6⟩ := BTree.push_cases sz s l hI hl
      obtain ⟨g1, g2, g3, g4, g5, g6⟩ := BTree.insert_spec l (s.flush).2 (by simp [BTree.flush])
        (by simp [BTree.flush]) (by simp [BTree.flush]) (by simpa [BTree.flush] using hl)
      have hcap : ((s.flush).2.insertUnchecked l).capacity = s.capacity := g5
      have hm : ((s.flush).2.insertUnchecked l).map.Perm l := by simpa [BTree.flush] using g4
      have hW : BTree.WInv sz { (s.flush).2.insertUnchecked l with totalSize := total sz l } :=
        ⟨g1, ((hm.map Prod.fst).nodup_iff).2 hl, g2, g3, (total_perm sz hm).symm⟩
      have hge : total sz l ≥ s.capacity := by omega
      have hgt : total sz l > s.capacity := by omega
      obtain ⟨rej, t2, p1, p2, p3, p4, p5⟩ := BTree.pop_spec sz _ (total sz l - s.capacity) hW
      refine ⟨s.map ++ rej, t2, ?_, fun h => by omega, fun _ => ⟨rej, List.Perm.refl _, p4.trans hm, ?_⟩⟩
      · change s.push sz l = _
        simp only [BTree.push, hge, if_true, hcap, hgt]
        simp only [hcap] at p1
        rw [p1]
        rfl
      · exact btree_pop_minimal hW p1 (by omega) (by simp; omega)
          (fun e he => hposl e (hm.mem_iff.1 he))

end BTree

section Compressed
open Compressed
variable [LinearOrder K] [LinearOrder V]

/-- **C70 in full**: a batch that fits beside what is stored (8 bytes for the length of the vector, then
the elements) evicts nothing, and `push` evicts no more than needed. -/
def C70_full : Prop := ∀ (K V : Type) (_ : LinearOrder K) (_ : LinearOrder V) (z : Lz4)
  (cd : VecCodec (K × V)), cd.Law → ∀ (srt srtU : Sorter (K × V)), ArrayProps.ByValue srtU →
  ∀ (n : Nat) (s : Compressed), Reachable (compressed z cd srt srtU) (Compressed.new n) s →
  ∀ l : List (K × V), (∀ e ∈ l, cd.enc e ≠ none) → l ≠ [] →
    let B := compressed z cd srt srtU
    8 + total cd.size (B.contents s ++ l) ≤ n → ∃ s', B.push s l = .ok ([], s')

/-- **C70, exactly.**  A batch is never larger than the capacity, larger with its header, or not
serialisable.  In the last case it is refused and nothing changes.  If it fits with its header in what
`size()` leaves, it is stored and nothing is evicted; if it does not but is no larger than the capacity,
it is stored and the greatest values are evicted, at least one, and without the least of them there
would not be room for the old vector and the new one each with its header; larger, everything is handed
back but the new elements of least values, as many as fit. -/
theorem C70_partial (z : Lz4) (cd : VecCodec (K × V)) (hlaw : cd.Law) (srt srtU : Sorter (K × V))
    (hsrt : ArrayProps.ByValue srtU) (n : Nat) (ops : List (Op K V))
    (hops : ∀ op ∈ ops, CompressedProps.Single op) (o : List (K × V)) (s : Compressed)
    (hs : (compressed z cd srt srtU).run (Compressed.new n) ops = .ok (o, s)) (l : List (K × V)) :
    let B := compressed z cd srt srtU
    ((∃ e ∈ l, cd.enc e = none) → B.push s l = .ok (l, s)) ∧
    ((∀ e ∈ l, cd.enc e ≠ none) → ∃ out s', B.push s l = .ok (out, s') ∧
      (B.size s + (8 + total cd.size l) ≤ n → out = [] ∧ B.contents s' = B.contents s ++ l) ∧
      (8 + total cd.size l ≤ n → n < B.size s + (8 + total cd.size l) →
        ∃ kept, B.contents s' = kept ++ l ∧ (kept ++ out).Perm (B.contents s) ∧ out ≠ [] ∧
          Greatest kept out ∧ NoMoreThanNeeded cd.size n kept out l 16) ∧
      (n < 8 + total cd.size l → ∃ rejected, out = B.contents s ++ rejected ∧
        (B.contents s' ++ rejected).Perm l ∧ Greatest (B.contents s') rejected ∧
        (l ≠ [] → NoMoreThanNeeded cd.size n (B.contents s') rejected [] 8))) := by
  intro B
  obtain ⟨o', s', old, h1, h, h3, -⟩ := CompressedProps.run_single (z := z) (srt := srt) (srtU := srtU)
    hlaw ops hops _ _ (CompressedProps.new_holds n)
  rw [hs] at h1; cases h1
  have hcap : s.capacity = n := h3
  rw [show B.contents s = old from CompressedProps.contents_eq hlaw h]
  have hsize : B.size s = if old = [] then 0 else 8 + total cd.size old := h.size
  obtain ⟨bytes, b1, b2, b3, b4⟩ := h.readBytes
  constructor
  · rintro ⟨e, he, hn⟩
    have hen : cd.encode l = none := by
      cases hc : cd.encode l with
      | none => rfl
      | some b => exact absurd hn ((cd.encode_enc hc).1 e he)
    change s.push z cd srtU l = _
    unfold Compressed.push
    rw [b1]; simp only
    rw [b2, h.read hlaw]
    simp only [hen]
    rfl
  · intro henc
    obtain ⟨eb, e1, e2⟩ := cd.encode_some l henc
    have hbs : B.size s = bytes.length := by rw [hsize, b3]
    have hpush : B.push s l = (do
        let room ← Res.sub s.capacity bytes.length
        if eb.length > s.capacity then
          let values := srtU.run l
          let (cut, _, _) := findCutAtSize cd.size (eb.length - s.capacity) values
          let c ← s.rewrite z cd (values.take cut)
          pure (old ++ values.drop cut, c)
        else if eb.length ≤ room then
          let c ← s.rewrite z cd (old ++ l)
          pure ([], c)
        else
          let vec := srtU.run old
          let (cut, _, _) := findCutAtSize cd.size (eb.length - room) vec
          let c ← s.rewrite z cd (vec.take cut ++ l)
          pure (vec.drop cut, c)) := by
      change s.push z cd srtU l = _
      unfold Compressed.push
      rw [b1]; simp only
      rw [b2, h.read hlaw]
      simp only [e1]
      rfl
    rw [Res.sub_ok b4] at hpush
    simp only [Res.ok_bind] at hpush
    by_cases hbig : n < 8 + total cd.size l
    · rw [if_pos (by omega)] at hpush
      by_cases hl : l = []
      · subst hl
        have hr : srtU.run [] = ([] : List (K × V)) := by simpa using srtU.perm []
        obtain ⟨c', g1, g2, g3⟩ := write_spec (z := z) (cd := cd) s [] (by simp) (Or.inl rfl)
        simp only [hr, List.take_nil, List.drop_nil, g1, Res.ok_bind, List.append_nil] at hpush
        refine ⟨old, c', hpush, fun hle => by omega, fun hle => by omega, fun _ =>
          ⟨[], by simp, ?_, ?_, fun h => absurd rfl h⟩⟩
        · rw [show B.contents c' = [] from CompressedProps.contents_eq hlaw g2]; simp
        · simp [Greatest]
      · have hsl : srtU.run l ≠ [] := fun h0 => hl (by simpa [h0] using (srtU.perm l))
        obtain ⟨p, q, q1, q2, q3, q4, q5⟩ := findCut_spec cd.size (eb.length - s.capacity) _ hsl
        have hp : (p ++ q).Perm l := by rw [← q1]; exact srtU.perm l
        have ht := total_perm cd.size hp
        rw [total_append] at ht
        obtain ⟨c', g1, g2, g3⟩ := write_spec (z := z) s p (fun e he => henc e (hp.subset (by simp [he])))
          (by rcases q4 with q4 | q4
              · exact Or.inl q4
              · right; omega)
        have htake : (srtU.run l).take p.length = p := by rw [q1]; simp
        have hdrop : (srtU.run l).drop p.length = q := by rw [q1]; simp
        simp only [q3, htake, hdrop, g1, Res.ok_bind] at hpush
        refine ⟨old ++ q, c', hpush, fun hle => by omega, fun hle => by omega, fun _ => ⟨q, rfl, ?_⟩⟩
        rw [show B.contents c' = p from CompressedProps.contents_eq hlaw g2]
        have := noMore_cut (n := n) (p := p) (over := 8) (added := []) (by rw [← q1]; exact hsrt l) q2 q5
          (by omega) (by simp; omega)
        exact ⟨hp, this.1, fun _ => this.2⟩
    · rw [if_neg (by omega)] at hpush
      by_cases hroom : B.size s + (8 + total cd.size l) ≤ n
      · rw [if_pos (by omega)] at hpush
        obtain ⟨c', g1, g2, g3⟩ := write_spec (z := z) s (old ++ l)
          (fun e he => by
            rcases List.mem_append.1 he with he | he
            · exact h.1 e he
            · exact henc e he) (by
            right
            rw [total_append]
            split at hsize
            · rename_i hl; simp [hl]; omega
            · omega)
        simp only [g1, Res.ok_bind] at hpush
        exact ⟨[], c', hpush, fun _ => ⟨rfl, CompressedProps.contents_eq hlaw g2⟩, fun _ hlt => by omega,
          fun hlt => by omega⟩
      · rw [if_neg (by omega)] at hpush
        have hold : old ≠ [] := by
          intro h0
          rw [if_pos h0] at hsize
          omega
        rw [if_neg hold] at hsize
        have hsl : srtU.run old ≠ [] := fun h0 => hold (by simpa [h0] using (srtU.perm old))
        obtain ⟨p, q, q1, q2, q3, q4, q5⟩ :=
          findCut_spec cd.size (eb.length - (s.capacity - bytes.length)) _ hsl
        have hp : (p ++ q).Perm old := by rw [← q1]; exact srtU.perm old
        have ht := total_perm cd.size hp
        rw [total_append] at ht
        obtain ⟨c', g1, g2, g3⟩ := write_spec (z := z) s (p ++ l)
          (fun e he => by
            rcases List.mem_append.1 he with he | he
            · exact h.1 e (hp.subset (by simp [he]))
            · exact henc e he) (by
            right
            rw [total_append]
            rcases q4 with q4 | q4
            · simp [q4]; omega
            · omega)
        have htake : (srtU.run old).take p.length = p := by rw [q1]; simp
        have hdrop : (srtU.run old).drop p.length = q := by rw [q1]; simp
        simp only [q3, htake, hdrop, g1, Res.ok_bind] at hpush
        refine ⟨q, c', hpush, fun hle => by omega, fun _ _ => ⟨p, CompressedProps.contents_eq hlaw g2, hp,
          q2, ?_⟩, fun hlt => by omega⟩
        exact noMore_cut (n := n) (p := p) (over := 16) (added := l) (by rw [← q1]; exact hsrt old) q2 q5
          (by omega) (by omega)

/-- **C70 is false of the code**: the two elements would take 14 bytes of 16, but the room asked for the
second one includes a second header. -/
theorem C70_false : ¬ C70_full := by
  intro h
  have key : ∀ s, CompressedProps.Ex.run (Compressed.new 16) [.push [(1, 2)]] = .ok ([], s) →
      8 + total CompressedProps.smallVec.size (CompressedProps.Ex.contents s ++ [(2, 0)]) ≤ 16 ∧
      (CompressedProps.Ex.push s [(2, 0)]).bind (fun r => .ok r.1) = .ok [(1, 2)] := by
    intro s hs
    have : (CompressedProps.Ex.run (Compressed.new 16) [.push [(1, 2)]]).bind (fun r => .ok
        (decide (8 + total CompressedProps.smallVec.size (CompressedProps.Ex.contents r.2 ++ [(2, 0)]) ≤ 16),
         (CompressedProps.Ex.push r.2 [(2, 0)]).bind (fun r => .ok r.1))) =
        .ok (true, .ok [(1, 2)]) := by decide +kernel
    rw [hs] at this
    change Res.ok (_, _) = Res.ok (_, _) at this
    injection this with this
    injection this with t1 t2
    exact ⟨of_decide_eq_true t1, t2⟩
  have hrun : ∃ s, CompressedProps.Ex.run (Compressed.new 16) [.push [(1, 2)]] = .ok ([], s) :=
    ⟨_, by rfl⟩
  obtain ⟨s, hs⟩ := hrun
  obtain ⟨k1, k2⟩ := key s hs
  obtain ⟨s', hs'⟩ := h Nat Nat inferInstance inferInstance CompressedProps.noComp
    CompressedProps.smallVec CompressedProps.smallVec_law CompressedProps.byValue CompressedProps.byValue
    ArrayProps.natSorter_byValue 16 s ⟨_, _, hs⟩ [(2, 0)] (by decide) (by decide) k1
  have hs' : CompressedProps.Ex.push s [(2, 0)] = .ok ([], s') := hs'
  rw [hs'] at k2
  change Res.ok [] = Res.ok _ at k2
  injection k2 with k2
  exact absurd k2 (by simp)

end Compressed

/-! ## The hypotheses are met by non-trivial cases -/

/-- Sizes other than 1: element sizes are the values; the batch `[(3, 4)]` evicts only the greatest of
the two old elements (sizes 2 and 5, capacity 10). -/
example : ((arrayBlock (fun e : Nat × Nat => e.2) ArrayProps.natSorter ArrayProps.natSorter).run
    (Array.new 10) [.push [(1, 2), (2, 5)], .push [(3, 4)]]).bind (fun r => .ok (r.1, r.2.values)) =
    .ok ([(2, 5)], [(1, 2), (3, 4)]) := by decide +kernel

/-- The same on a `BTree`, the old element of key 1 being replaced. -/
example : ((btreeBlock (fun e : Nat × Nat => e.2)).run
    (BTree.new 10) [.push [(1, 2), (2, 4), (5, 3)], .push [(1, 4)]]).bind (fun r => .ok (r.1, r.2.map)) =
    .ok ([(1, 2), (2, 4)], [(1, 4), (5, 3)]) := by decide +kernel

/-- On a `Compressed` of 24 bytes. -/
example : (CompressedProps.Ex.run (Compressed.new 24) [.push [(1, 2), (2, 4)], .push [(3, 1)]]).bind
    (fun r => .ok (r.1, CompressedProps.Ex.contents r.2)) = .ok ([(2, 4)], [(1, 2), (3, 1)]) := by
  decide +kernel

end EvictProps
end Byoc
