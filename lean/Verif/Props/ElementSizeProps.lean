import Verif.Model.ElementSize
import Verif.Props.ArrayProps
import Verif.Props.BTreeProps

/-!
# C107: changing how the size of elements is computed
-/

namespace Byoc.ElementSizeProps

open ArrayProps BTreeProps List

variable {K V : Type} [LinearOrder K]

/-- Full statement: once the size function was changed (from `sz` to `sz'`), whatever is called, no call panics, `size()` is
the sum of the sizes of what is held, within the capacity. -/
def C107_full : Prop := ∀ (n : Nat) (sz sz' : Nat × Nat → Nat) (ops ops' : List (Op Nat Nat)) (out : List (Nat × Nat))
    (s s' : Array Nat Nat), (arrayBlock sz natSorter natSorter).run (Array.new n) ops = .ok (out, s) →
  s.withElementSize = .ok s' →
    ∃ out' t, (arrayBlock sz' natSorter natSorter).run s' ops' = .ok (out', t) ∧
      (arrayBlock sz' natSorter natSorter).size t = total sz' ((arrayBlock sz' natSorter natSorter).contents t) ∧
      (arrayBlock sz' natSorter natSorter).size t ≤ n

theorem accepted {K V : Type} {s s' : Array K V} : s.withElementSize = .ok s' ↔ s.totalSize = 0 ∧ s' = s := by
  unfold Array.withElementSize
  split
  · constructor
    · intro h; cases h
    · rintro ⟨h, -⟩; omega
  · constructor
    · intro h; cases h; exact ⟨by omega, rfl⟩
    · rintro ⟨-, rfl⟩; rfl

/-- **C107 (Array).** The change is accepted exactly when `size()` is zero, and nothing else changes.  Then `size()` is right
and no call panics, whatever is called, if and only if the elements held, if any, take no room with the new function either. -/
theorem C107_array_partial (sz sz' : K × V → Nat) (srt srtS : Sorter (K × V)) (n : Nat) (s : Array K V)
    (hr : Reachable (arrayBlock sz srt srtS) (Array.new n) s) :
    ((∃ s', s.withElementSize = .ok s') ↔ (arrayBlock sz srt srtS).size s = 0) ∧
    ∀ s', s.withElementSize = .ok s' →
      (arrayBlock sz' srt srtS).contents s' = (arrayBlock sz srt srtS).contents s ∧
      ((∀ ops', ∃ out' t, (arrayBlock sz' srt srtS).run s' ops' = .ok (out', t) ∧
          (arrayBlock sz' srt srtS).size t = total sz' ((arrayBlock sz' srt srtS).contents t) ∧
          (arrayBlock sz' srt srtS).size t ≤ n ∧
          ((arrayBlock sz' srt srtS).contents t ++ out').Perm
            ((arrayBlock sz srt srtS).contents s ++ ops'.flatMap Op.given)) ↔
        total sz' ((arrayBlock sz srt srtS).contents s) = 0) := by
  have hc : s.capacity = n := by
    obtain ⟨ops, out, h⟩ := hr
    obtain ⟨out', t, h1, -, -, h4, -⟩ :=
      (Array.lawful sz srt srtS).run ops (fun op _ => okTrue op) (Array.new n) (Array.new_inv sz n)
    rw [h] at h1; cases h1; exact h4
  refine ⟨⟨fun ⟨s', h⟩ => (accepted.1 h).1, fun h => ⟨s, accepted.2 ⟨h, rfl⟩⟩⟩, fun s' h => ?_⟩
  obtain ⟨h0, rfl⟩ := accepted.1 h
  refine ⟨rfl, fun hall => ?_, fun hz ops' => ?_⟩
  · obtain ⟨out', t, h1, h2, -⟩ := hall []
    cases h1
    exact h2.symm.trans h0
  · have hI : Array.Inv sz' s' := ⟨h0.trans hz.symm, by omega⟩
    obtain ⟨out', t, h1, h2, h3, h4, h5⟩ := (Array.lawful sz' srt srtS).run ops' (fun op _ => okTrue op) s' hI
    exact ⟨out', t, h1, h2.1, (by rw [h4] at h3; rw [← hc]; exact h3), h5⟩

omit [LinearOrder K] in
theorem btree_accepted {s s' : BTree K V} : s.withElementSize = .ok s' ↔ s.totalSize = 0 ∧ s' = s := by
  unfold BTree.withElementSize
  split
  · constructor
    · intro h; cases h
    · rintro ⟨h, -⟩; omega
  · constructor
    · intro h; cases h; exact ⟨by omega, rfl⟩
    · rintro ⟨-, rfl⟩; rfl

/-- **C107 (BTree).** The same for `BTree`, and batches without repeated keys. -/
theorem C107_btree_partial [LinearOrder V] (sz sz' : K × V → Nat) (n : Nat) (s : BTree K V) (hr : ReachedFrom sz n s) :
    ((∃ s', s.withElementSize = .ok s') ↔ (btreeBlock sz).size s = 0) ∧
    ∀ s', s.withElementSize = .ok s' →
      (btreeBlock sz').contents s' = (btreeBlock sz).contents s ∧
      ((∀ ops', DistinctBatches ops' → ∃ out' t, (btreeBlock sz').run s' ops' = .ok (out', t) ∧
          (btreeBlock sz').size t = total sz' ((btreeBlock sz').contents t) ∧ (btreeBlock sz').size t ≤ n ∧
          ((btreeBlock sz').contents t ++ out').Perm ((btreeBlock sz).contents s ++ ops'.flatMap Op.given)) ↔
        total sz' ((btreeBlock sz).contents s) = 0) := by
  obtain ⟨hI0, hc⟩ := hr.inv
  refine ⟨⟨fun ⟨s', h⟩ => (btree_accepted.1 h).1, fun h => ⟨s, btree_accepted.2 ⟨h, rfl⟩⟩⟩, fun s' h => ?_⟩
  obtain ⟨h0, rfl⟩ := btree_accepted.1 h
  refine ⟨rfl, fun hall => ?_, fun hz ops' hd => ?_⟩
  · obtain ⟨out', t, h1, h2, -⟩ := hall [] (fun l hl => by cases hl)
    cases h1
    exact h2.symm.trans h0
  · have hI : BTree.Inv sz' s' := ⟨⟨hI0.1.agree, hI0.1.nodup, hI0.1.mapSorted, hI0.1.setSorted, h0.trans hz.symm⟩, by omega⟩
    obtain ⟨out', t, h1, h2, h3, h4, h5⟩ := (BTree.lawful sz').run ops' hd.ok s' hI
    exact ⟨out', t, h1, h2.1.size, (by rw [h4] at h3; rw [← hc]; exact h3), h5⟩

/-- Elements without size, then a size of one: the change is accepted, `size()` is 0 with an element of size one held, and
taking it panics. -/
theorem C107_wrong : ∃ s s' : Array Nat Nat,
    (arrayBlock (fun _ => 0) natSorter natSorter).run (Array.new 2) [.push [(1, 1)]] = .ok ([], s) ∧
    s.withElementSize = .ok s' ∧ (arrayBlock (fun _ => 1) natSorter natSorter).size s' = 0 ∧
    (arrayBlock (fun _ => 1) natSorter natSorter).contents s' = [(1, 1)] ∧
    (arrayBlock (fun _ => 1) natSorter natSorter).run s' [.take 1] = .panic :=
  ⟨_, _, rfl, rfl, rfl, rfl, rfl⟩

/-- More than the capacity is then held: three elements of size one in a container of capacity two. -/
theorem C107_overfull : ∃ s s' t : Array Nat Nat,
    (arrayBlock (fun _ => 0) natSorter natSorter).run (Array.new 2) [.push [(1, 1)]] = .ok ([], s) ∧
    s.withElementSize = .ok s' ∧
    (arrayBlock (fun _ => 1) natSorter natSorter).run s' [.push [(2, 2), (3, 3)]] = .ok ([], t) ∧
    ((arrayBlock (fun _ => 1) natSorter natSorter).contents t).length = 3 :=
  ⟨_, _, _, rfl, rfl, rfl, rfl⟩

/-- The full statement does not hold. -/
theorem C107_false : ¬ C107_full := by
  intro h
  obtain ⟨s, s', h1, h2, h3, h4, h5⟩ := C107_wrong
  obtain ⟨out', t, h6, -⟩ := h 2 (fun _ => 0) (fun _ => 1) [.push [(1, 1)]] [.take 1] _ s s' h1 h2
  rw [h5] at h6
  cases h6

/-- An emptied container accepts a new size function and works with it. -/
example : ∃ s : Array Nat Nat, Reachable (arrayBlock (fun _ => 1) natSorter natSorter) (Array.new 3) s ∧
    s.withElementSize = .ok s ∧
    ∃ t, (arrayBlock (fun e => e.2) natSorter natSorter).run s [.push [(1, 1), (2, 2)], .push [(3, 1)]] = .ok ([(2, 2)], t) :=
  ⟨Array.new 3, ⟨[.push [(1, 1)], .take 1], [(1, 1)], rfl⟩, rfl, _, rfl⟩

end Byoc.ElementSizeProps
