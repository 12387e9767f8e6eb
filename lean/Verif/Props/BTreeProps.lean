import Verif.Proofs.BTree
import Verif.Proofs.Get

/-! # C07 – C10: `BTree` -/

set_option linter.unusedSectionVars false

namespace Byoc
namespace BTreeProps

variable {K V : Type} [LinearOrder K] [LinearOrder V]

/-- Every batch pushed in the history has pairwise distinct keys. -/
def DistinctBatches (ops : List (Op K V)) : Prop :=
  ∀ l, Op.push l ∈ ops → (l.map Prod.fst).Nodup

theorem DistinctBatches.ok {ops : List (Op K V)} (h : DistinctBatches ops) :
    ∀ op ∈ ops, op.Ok (fun l => (l.map Prod.fst).Nodup) := by
  intro op hop
  cases op with
  | push l => exact h l hop
  | _ => trivial

/-- `s` is reached from a new container of capacity `n` by calls whose batches have distinct keys. -/
def ReachedFrom (sz : K × V → Nat) (n : Nat) (s : BTree K V) : Prop :=
  ∃ ops out, DistinctBatches ops ∧ (btreeBlock sz).run (BTree.new n) ops = .ok (out, s)

theorem ReachedFrom.inv {sz : K × V → Nat} {n : Nat} {s : BTree K V} (h : ReachedFrom sz n s) :
    BTree.Inv sz s ∧ s.capacity = n := by
  obtain ⟨ops, out, h1, h2⟩ := h
  obtain ⟨o, s', g1, g2, g3, g4, g5⟩ :=
    (BTree.lawful sz).run ops h1.ok (BTree.new n) (BTree.new_inv sz n)
  rw [h2] at g1; cases g1
  exact ⟨g2, g4⟩

/-- **C07.** Any history whose batches have distinct keys: no panic, capacity as constructed, size
within capacity and equal to the sum of the sizes of what a flush would return, nothing lost or
invented. -/
theorem C07_btree_contract (sz : K × V → Nat) (n : Nat) (ops : List (Op K V))
    (h : DistinctBatches ops) :
    ∃ out s, (btreeBlock sz).run (BTree.new n) ops = .ok (out, s) ∧
      (btreeBlock sz).capacity s = n ∧ (btreeBlock sz).size s ≤ n ∧
      (btreeBlock sz).size s = total sz ((btreeBlock sz).contents s) ∧
      ((btreeBlock sz).contents s ++ out).Perm (ops.flatMap Op.given) := by
  obtain ⟨out, s, h1, h2, h3, h4, h5⟩ :=
    (BTree.lawful sz).run ops h.ok (BTree.new n) (BTree.new_inv sz n)
  refine ⟨out, s, h1, h4, by rw [h4] at h3; exact h3, h2.1.size, ?_⟩
  simpa [BTree.new, Block.contents, btreeBlock, BTree.flush] using h5

/-- **C07 (lookups).** `contains` and `take` agree with the contents. -/
theorem C07_btree_lookup (sz : K × V → Nat) (n : Nat) (s : BTree K V) (hr : ReachedFrom sz n s)
    (k : K) : ∃ b o s', (btreeBlock sz).contains s k = .ok (b, s) ∧
      (btreeBlock sz).take s k = .ok (o, s') ∧
      (b = true ↔ HasKey ((btreeBlock sz).contents s) k) ∧ (b = true ↔ o ≠ none) ∧
      (o = none → s' = s) ∧
      (∀ e, o = some e → e.1 = k ∧
        (e :: (btreeBlock sz).contents s').Perm ((btreeBlock sz).contents s)) := by
  obtain ⟨o, s', h1, -, -, -, -, h4⟩ := BTree.take_spec sz s k hr.inv.1.1
  have hk : s.contains k = true ↔ HasKey s.map k := by simp [BTree.contains, HasKey]
  refine ⟨s.contains k, o, s', rfl, h1, hk, ?_, ?_, ?_⟩
  · rw [hk]
    cases o with
    | none => simpa using h4.1
    | some e =>
      simp only [ne_eq, reduceCtorEq, not_false_eq_true, iff_true]
      exact ⟨e.2, h4.2.mem_iff.1 (by rw [← h4.1]; simp)⟩
  · rintro rfl; exact h4.2
  · rintro e rfl; exact h4

/-- **C08.** Never two elements with the same key. -/
theorem C08_btree_one_per_key (sz : K × V → Nat) (n : Nat) (s : BTree K V)
    (hr : ReachedFrom sz n s) : (((btreeBlock sz).contents s).map Prod.fst).Nodup :=
  hr.inv.1.1.nodup

/-- **C08 (replacement).** A pushed batch no larger than the capacity is stored completely, and the
old elements with the pushed keys are handed back; a larger batch hands back everything old and the
greatest new elements. -/
theorem C08_btree_push (sz : K × V → Nat) (n : Nat) (s : BTree K V) (hr : ReachedFrom sz n s)
    (l : List (K × V)) (hl : (l.map Prod.fst).Nodup) :
    ∃ out s', (btreeBlock sz).push s l = .ok (out, s') ∧
      let old := (btreeBlock sz).contents s
      let new := (btreeBlock sz).contents s'
      (new ++ out).Perm (old ++ l) ∧
      (total sz l ≤ n → (∀ e ∈ l, e ∈ new) ∧ (∀ e ∈ old, e.1 ∈ l.map Prod.fst → e ∈ out) ∧
        ∀ e ∈ out, e ∈ old) ∧
      (n < total sz l → ∃ rejected, out = old ++ rejected ∧ (new ++ rejected).Perm l ∧
        ∀ x ∈ new, ∀ y ∈ rejected, x.2 < y.2 ∨ (x.2 = y.2 ∧ x.1 ≤ y.1)) := by
  obtain ⟨hI, hc⟩ := hr.inv
  obtain ⟨out, s', h1, h2, h3, h4, h5, h6⟩ := BTree.push_cases sz s l hI hl
  refine ⟨out, s', h1, h4, ?_, ?_⟩
  · intro hle
    obtain ⟨kept, p1, p2, p3⟩ := h5 (by omega)
    refine ⟨fun e he => p1.mem_iff.2 (List.mem_append_right _ he), ?_, ?_⟩
    · intro e he hk
      rcases List.mem_append.1 (p2.mem_iff.2 he) with g | g
      · exact absurd ⟨e.2, g⟩ (p3 e.1 hk)
      · exact g
    · intro e he
      exact p2.mem_iff.1 (List.mem_append_right _ he)
  · intro hlt
    obtain ⟨rej, p1, p2, p3⟩ := h6 (by omega)
    exact ⟨rej, p1, p2, p3⟩

/-- **C08 (no needless eviction).** New keys that fit in the free room evict nothing. -/
theorem C08_btree_push_fits (sz : K × V → Nat) (n : Nat) (s : BTree K V) (hr : ReachedFrom sz n s)
    (l : List (K × V)) (hlt : total sz l < n)
    (hfit : total sz ((btreeBlock sz).contents s) + total sz l ≤ n)
    (hnew : ∀ e ∈ l, ¬ HasKey ((btreeBlock sz).contents s) e.1) :
    ∃ s', (btreeBlock sz).push s l = .ok ([], s') := by
  obtain ⟨hI, hc⟩ := hr.inv
  refine BTree.push_fits sz s l hI (by omega) ?_ ?_
  · rw [hc, hI.1.size]; exact hfit
  · intro k hk
    obtain ⟨e, he, rfl⟩ := List.mem_map.1 hk
    exact hnew e he

/-- **C09.** `pop(m)`: evicts only elements whose (value, key) is not below that of any kept
element; empties the container if it holds no more than `m`, else frees at least `m` and no more than
necessary. -/
theorem C09_btree_pop (sz : K × V → Nat) (n : Nat) (s : BTree K V) (hr : ReachedFrom sz n s)
    (m : Nat) :
    ∃ out s', (btreeBlock sz).pop s m = .ok (out, s') ∧
      let old := (btreeBlock sz).contents s
      let new := (btreeBlock sz).contents s'
      (new ++ out).Perm old ∧
      (∀ x ∈ new, ∀ y ∈ out, x.2 < y.2 ∨ (x.2 = y.2 ∧ x.1 < y.1)) ∧
      (total sz old ≤ m → new = []) ∧
      (m < total sz old → m ≤ total sz out ∧
        ∃ x rest, out = x :: rest ∧
          (∀ y ∈ rest, x.2 < y.2 ∨ (x.2 = y.2 ∧ x.1 < y.1)) ∧
          (rest = [] ∨ total sz rest < m)) := by
  obtain ⟨hI, hc⟩ := hr.inv
  have hsz := hI.1.size
  have strict : ∀ x y : K × V, pairLe (sw x) (sw y) → x ≠ y →
      x.2 < y.2 ∨ (x.2 = y.2 ∧ x.1 < y.1) := by
    intro x y h hne
    rcases h with h | ⟨h, h'⟩
    · exact Or.inl h
    · refine Or.inr ⟨h, lt_of_le_of_ne h' ?_⟩
      intro he
      exact hne (Prod.ext he h)
  change ∃ out s', s.pop sz m = .ok (out, s') ∧ _
  rcases BTree.pop_cases sz s m hI.1 with ⟨h1, h2⟩ | ⟨h1, h2, h3⟩ |
      ⟨h1, h2, p, q, t', h3, h4, h5, h6, h7, h8, h9, h10, h11⟩
  · refine ⟨_, _, h2, ?_⟩
    simp only [Block.contents, btreeBlock, BTree.flush]
    simp [h1]
  · refine ⟨_, _, h3, ?_⟩
    simp only [Block.contents, btreeBlock, BTree.flush]
    exact ⟨by simp, by simp, fun _ => trivial, fun hlt => by omega⟩
  · refine ⟨_, _, h7, ?_⟩
    simp only [Block.contents, btreeBlock, BTree.flush]
    have hs := hI.1.setSorted
    have hnd := hI.1.setNodup
    rw [h3, ← List.map_append] at hnd
    have hnd' := hnd.of_map
    rw [h3, List.pairwise_append] at hs
    rw [List.nodup_append] at hnd'
    refine ⟨h10, ?_, fun hlt => by omega, fun _ => ⟨h5, ?_⟩⟩
    · intro x hx y hy
      have hx' := h11.mem_iff.1 hx
      exact strict x y (hs.2.2 _ (List.mem_map_of_mem hx') _ (List.mem_map_of_mem hy))
        (hnd'.2.2 x hx' y hy)
    · cases q with
      | nil => exact absurd rfl h4
      | cons x rest =>
        refine ⟨x, rest, rfl, ?_, h6 x rest rfl⟩
        intro y hy
        have h12 := hs.2.1
        simp only [List.map_cons, List.pairwise_cons] at h12
        refine strict x y (h12.1 _ (List.mem_map_of_mem hy)) ?_
        rintro rfl
        have := hnd'.2.1
        simp only [List.nodup_cons] at this
        exact this.1 hy

/-! ## C10 is false of the code -/

/-- The full statement of C10: any history, whatever the batches, returns and loses nothing. -/
def C10_full : Prop :=
  ∀ (n : Nat) (ops : List (Op Nat Nat)), ∃ out s,
    (btreeBlock fun _ => 1).run (BTree.new n) ops = .ok (out, s) ∧
      ((btreeBlock fun _ => 1).contents s ++ out).Perm (ops.flatMap Op.given)

/-- **C10, refuted.** Pushing a batch with a key twice and then popping panics. -/
theorem C10_false : ¬ C10_full := by
  intro h
  obtain ⟨out, s, h1, -⟩ := h 3 [.push [(1, 2), (1, 1)], .pop 1]
  have : (btreeBlock (fun _ : Nat × Nat => 1)).run (BTree.new 3)
      [.push [(1, 2), (1, 1)], .pop 1] = .panic := rfl
  rw [this] at h1
  cases h1

/-- Even without a panic, an element is lost: both were accepted, only one comes out. -/
theorem C10_loses : ∃ s, (btreeBlock (fun _ : Nat × Nat => 1)).push (BTree.new 3) [(1, 1), (1, 2)]
      = .ok ([], s) ∧ (btreeBlock (fun _ : Nat × Nat => 1)).contents s = [(1, 2)] ∧
      (btreeBlock (fun _ : Nat × Nat => 1)).size s = 2 := ⟨_, rfl, rfl, rfl⟩

/-- What holds of C10: the batches must have distinct keys (this is C07). -/
theorem C10_partial (sz : K × V → Nat) (n : Nat) (ops : List (Op K V)) (h : DistinctBatches ops) :
    ∃ out s, (btreeBlock sz).run (BTree.new n) ops = .ok (out, s) ∧
      ((btreeBlock sz).contents s ++ out).Perm (ops.flatMap Op.given) := by
  obtain ⟨out, s, h1, -, -, -, h5⟩ := C07_btree_contract sz n ops h
  exact ⟨out, s, h1, h5⟩

/-! ## Non-vacuity -/

def demoOps : List (Op Nat Nat) := [.push [(1, 10), (2, 30)], .push [(2, 5)], .push [(3, 7), (4, 1)]]

/-- The state after `demoOps` on a container of capacity 3. -/
def demo : BTree Nat Nat :=
  { capacity := 3, totalSize := 3, set := [(1, 4), (5, 2), (7, 3)], map := [(2, 5), (3, 7), (4, 1)] }

theorem demo_reached : ReachedFrom (fun _ => 1) 3 demo :=
  ⟨demoOps, [(2, 30), (1, 10)], by
    intro l hl
    simp only [demoOps, List.mem_cons, Op.push.injEq, List.not_mem_nil, or_false] at hl
    rcases hl with rfl | rfl | rfl <;> decide, rfl⟩

example : (btreeBlock (fun _ => 1)).pop demo 2 = .ok ([(2, 5), (3, 7)],
    { capacity := 3, totalSize := 1, set := [(1, 4)], map := [(4, 1)] }) := rfl
example := C09_btree_pop (fun _ => 1) 3 demo demo_reached 2
example := C08_btree_push (fun _ => 1) 3 demo demo_reached [(3, 0), (9, 9)] (by decide)

/-! ## C68: access through cells -/

/-- The full statement of C68: after any history with distinct keys in each batch, `get_mut(k)` on a
stored key gives its value, writing through the cell replaces that value and changes nothing else. -/
def C68_full : Prop :=
  ∀ (sz : Nat × Nat → Nat) (n : Nat) (s : BTree Nat Nat), ReachedFrom sz n s →
    ∀ (k : Nat) (f : Nat → Nat) (v : Nat), (k, v) ∈ (btreeBlock sz).contents s →
      ∃ s' rest, (btreeGet sz).getMut s k f = .ok (some v, s') ∧
        ((btreeBlock sz).contents s).Perm ((k, v) :: rest) ∧
        ((btreeBlock sz).contents s').Perm ((k, f v) :: rest)

/-- **C68, refuted.** Even a read panics when the element fills the container and elements of size 0
are stored beside it: the cell pushes the element back, which flushes them, and asserts that nothing
comes out. -/
theorem C68_false : ¬ C68_full := by
  intro h
  obtain ⟨s', rest, h1, -⟩ := h (fun e => e.1) 2
    { capacity := 2, totalSize := 2, set := [(7, 2), (9, 0)], map := [(0, 9), (2, 7)] }
    ⟨[.push [(2, 7)], .push [(0, 9)]], [], by
      intro l hl
      simp only [List.mem_cons, Op.push.injEq, List.not_mem_nil, or_false] at hl
      rcases hl with rfl | rfl <;> decide, rfl⟩ 2 id 7 (by decide)
  cases h1

/-- Every write: what decides. With `v` the value of `k` and `rest` the other elements, the access
panics exactly when the new value does not fit beside `rest`, or fills the container alone while
`rest` is not empty (elements of size 0).  When it does not panic, only the value of `k` changed: a
write never silently pushes another element out. -/
theorem C68_exact (sz : K × V → Nat) (n : Nat) (s : BTree K V) (hr : ReachedFrom sz n s) (k : K)
    (f : V → V) :
    (¬ HasKey ((btreeBlock sz).contents s) k ∧ (btreeGet sz).getMut s k f = .ok (none, s)) ∨
    ∃ v rest, ((btreeBlock sz).contents s).Perm ((k, v) :: rest) ∧ ¬ HasKey rest k ∧
      (((total sz rest + sz (k, f v) > n ∨ (n ≤ sz (k, f v) ∧ rest ≠ [])) ∧
          (btreeGet sz).getMut s k f = .panic) ∨
        (total sz rest + sz (k, f v) ≤ n ∧ (n ≤ sz (k, f v) → rest = []) ∧
          ∃ s', (btreeGet sz).getMut s k f = .ok (some v, s') ∧
            (btreeBlock sz).capacity s' = n ∧
            (btreeBlock sz).size s' = total sz rest + sz (k, f v) ∧
            ((btreeBlock sz).contents s').Perm ((k, f v) :: rest))) := by
  obtain ⟨hI, hcap⟩ := hr.inv
  obtain ⟨o, t1, h1, h2, h3, h4, h5, h6⟩ := BTree.take_spec sz s k hI.1
  have hI1 : BTree.Inv sz t1 := ⟨h2, by have := hI.2; omega⟩
  cases o with
  | none =>
    left
    have : t1 = s := by
      simp only [BTree.take] at h1
      split at h1
      · cases h1; rfl
      · cases hx : Res.sub s.totalSize (sz (k, _)) <;> rw [hx] at h1 <;> cases h1
    subst this
    exact ⟨h6.1, by simp only [btreeGet, BTree.getMut, h1, Res.ok_bind]; rfl⟩
  | some e =>
    right
    obtain ⟨k', v⟩ := e
    obtain ⟨hk, hp⟩ := h6
    simp only at hk
    subst hk
    have hnk : ¬ HasKey t1.map k' := by
      have hn := ((hp.map Prod.fst).nodup_iff).2 hI.1.nodup
      simp only [List.map_cons, List.nodup_cons] at hn
      rw [hasKey_iff_mem_map]; exact hn.1
    refine ⟨v, t1.map, hp.symm, hnk, ?_⟩
    obtain ⟨out, t2, g1, g2, g3, g4, g5, g6⟩ :=
      BTree.push_cases sz t1 [(k', f v)] hI1 (by simp)
    have hs1 := h2.size
    have ht2 := total_perm sz g4
    simp only [total_append, total_cons, total_nil] at ht2 g5 g6
    have hb2 := g2.2
    have hs2 := g2.1.size
    have hget : (btreeGet sz).getMut s k' f = if out = [] then .ok (some v, t2) else .panic := by
      simp only [btreeGet, BTree.getMut, h1, Res.ok_bind, g1]; rfl
    have hc1 : t1.capacity = n := h3.trans hcap
    by_cases hd : total sz t1.map + sz (k', f v) > n ∨ (n ≤ sz (k', f v) ∧ t1.map ≠ [])
    · left
      refine ⟨hd, ?_⟩
      rw [hget, if_neg]
      rintro rfl
      simp only [List.append_nil, total_nil] at g4 ht2
      rcases hd with hd | ⟨hd1, hd2⟩
      · omega
      · rcases Nat.lt_or_ge n (sz (k', f v)) with hlt | hge
        · omega
        · -- size equal to the capacity: the push flushes
          have hpush : t1.push sz [(k', f v)] =
              .ok (t1.map, { (t1.flush).2.insertUnchecked [(k', f v)] with
                totalSize := sz (k', f v) }) := by
            have e1 : total sz [(k', f v)] ≥ t1.capacity := by simp; omega
            have e2 : ¬ total sz [(k', f v)] > t1.capacity := by simp; omega
            unfold BTree.push
            simp only [e1, if_true]
            rw [if_neg (by simpa [BTree.flush, BTree.insertUnchecked] using e2)]
            simp [BTree.flush]
          rw [hpush] at g1
          exact hd2 (congrArg (fun r => match r with | Res.ok x => x.1 | _ => []) g1)
    · right
      have hle : total sz t1.map + sz (k', f v) ≤ n := by omega
      have himp : n ≤ sz (k', f v) → t1.map = [] := fun hn => by
        by_contra hne
        exact hd (Or.inr ⟨hn, hne⟩)
      have hout : out = [] := by
        by_cases hc : sz (k', f v) < t1.capacity
        · obtain ⟨t', e1⟩ := BTree.push_fits sz t1 [(k', f v)] hI1 (by simpa using hc)
            (by simp; omega) (by simpa using hnk)
          rw [g1] at e1; cases e1; rfl
        · obtain ⟨kept, -, k2, -⟩ := g5 (by simp; omega)
          rw [himp (by omega)] at k2
          have := List.perm_nil.1 k2
          simp at this
          exact this.2
      subst hout
      refine ⟨hle, himp, t2, by rw [hget, if_pos rfl], g3.trans hc1, ?_, ?_⟩
      · simp only [total_nil] at ht2
        show t2.totalSize = _
        omega
      · simp only [List.append_nil] at g4
        simp only [Block.contents, btreeBlock, BTree.flush]
        perms [g4]

/-- **C68 (what holds).** With sizes that are positive and do not change when a value is written (the
default `element_size` is 1), histories mixing all methods with `get` and `get_mut` never panic, stay
within capacity and conserve every key. -/
theorem C68_partial (sz : K × V → Nat) (hpos : ∀ e, 0 < sz e) (hsame : ∀ k v w, sz (k, v) = sz (k, w))
    (n : Nat) (cs : List (Call K V)) (hc : ∀ l, Call.op (.push l) ∈ cs → (l.map Prod.fst).Nodup) :
    ∃ out s, (btreeBlock sz).calls (btreeGet sz) (BTree.new n) cs = .ok (out, s) ∧
      (btreeBlock sz).capacity s = n ∧ (btreeBlock sz).size s ≤ n ∧
      (((btreeBlock sz).contents s ++ out).map Prod.fst).Perm
        ((cs.flatMap Call.given).map Prod.fst) := by
  obtain ⟨out, s', h1, -, h3, h4, h5⟩ :=
    (BTree.lawful sz).calls (BTree.getLawful sz hpos) cs (fun c hcc => by
      cases c with
      | op o =>
        cases o with
        | push l => exact hc l hcc
        | _ => trivial
      | get => exact fun _ _ => hsame _ _ _
      | getMut => exact fun _ _ => hsame _ _ _) (BTree.new n) (BTree.new_inv sz n)
  exact ⟨out, s', h1, h4, h3.trans h4.le,
    by simpa [BTree.new, Block.contents, btreeBlock, BTree.flush] using h5⟩

/-- **C68 (one access).** Under the same hypotheses an access finds the value exactly when the key is
stored and changes that value only. -/
theorem C68_access_partial (sz : K × V → Nat) (hpos : ∀ e, 0 < sz e)
    (hsame : ∀ k v w, sz (k, v) = sz (k, w)) (n : Nat) (s : BTree K V) (hr : ReachedFrom sz n s)
    (k : K) (v : V) (f : V → V) (hm : (k, v) ∈ (btreeBlock sz).contents s) :
    ∃ s' rest, (btreeGet sz).getMut s k f = .ok (some v, s') ∧
      ((btreeBlock sz).contents s).Perm ((k, v) :: rest) ∧
      ((btreeBlock sz).contents s').Perm ((k, f v) :: rest) ∧
      ((btreeGet sz).get s k f = (btreeGet sz).getMut s k f) := by
  obtain ⟨hI, hcap⟩ := hr.inv
  rcases C68_exact sz n s hr k f with ⟨h, -⟩ | ⟨w, rest, h1, h2, h3⟩
  · exact absurd ⟨v, hm⟩ h
  · have hv : v = w := by
      rcases List.mem_cons.1 (h1.mem_iff.1 hm) with h | h
      · cases h; rfl
      · exact absurd ⟨v, h⟩ h2
    subst hv
    have ht := total_perm sz h1
    rw [total_cons, hsame k v (f v)] at ht
    have hs : total sz ((btreeBlock sz).contents s) ≤ n := by
      have := hI.2
      have e := hI.1.size
      simp only [Block.contents, btreeBlock, BTree.flush]
      omega
    rcases h3 with ⟨h3 | ⟨h3, h4⟩, -⟩ | ⟨-, -, s', h5, -, -, h6⟩
    · omega
    · cases rest with
      | nil => exact absurd rfl h4
      | cons e r =>
        rw [total_cons] at ht
        have := hpos e
        omega
    · exact ⟨s', rest, h5, h1, h6, rfl⟩

example : (btreeGet fun _ => 1).getMut demo 3 (fun _ => 0) = .ok (some 7,
    { capacity := 3, totalSize := 3, set := [(0, 3), (1, 4), (5, 2)],
      map := [(2, 5), (3, 0), (4, 1)] }) := rfl
example := C68_access_partial (fun _ : Nat × Nat => 1) (by simp) (by simp) 3 demo demo_reached 3 7
  (fun _ => 0) (by decide)
example := C68_exact (fun e : Nat × Nat => e.2) 3

end BTreeProps
end Byoc
