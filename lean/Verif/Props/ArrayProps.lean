import Verif.Proofs.Array

/-!
# C01 – C06, C48, C49: `Array`

`sz` is the element size function given to `with_element_size` (any function), `srt` and `srtS` the
two sorting routines used by the code (any routines that permute their input; where order matters,
`ByValue` says that they sort by value).
-/

namespace Byoc
namespace ArrayProps

variable {K V : Type}

/-- The routine sorts by increasing value. -/
def ByValue [LE V] (srt : Sorter (K × V)) : Prop :=
  ∀ l, (srt.run l).Pairwise (fun a b => a.2 ≤ b.2)

/-- A concrete sorting routine by value. -/
def natSorter : Sorter (Nat × Nat) := Sorter.ofLe (fun a b => a.2 ≤ b.2)

theorem natSorter_byValue : ByValue natSorter := by
  intro l
  have : Std.Total (fun a b : Nat × Nat => a.2 ≤ b.2) := ⟨fun a b => Nat.le_total _ _⟩
  have : IsTrans (Nat × Nat) (fun a b => a.2 ≤ b.2) := ⟨fun a b c => Nat.le_trans⟩
  exact List.pairwise_insertionSort _ l

theorem okTrue (op : Op K V) : op.Ok (fun _ => True) := by cases op <;> exact trivial

section
variable [LinearOrder K] (sz : K × V → Nat) (srt srtS : Sorter (K × V))

/-- **C01.** Whatever calls are made on a new `Array`, none panics, the capacity stays the one given
to the constructor and `size() ≤ capacity()`. -/
theorem C01_array_bounded (n : Nat) (ops : List (Op K V)) :
    ∃ out s, (arrayBlock sz srt srtS).run (Array.new n) ops = .ok (out, s) ∧
      (arrayBlock sz srt srtS).capacity s = n ∧
      (arrayBlock sz srt srtS).size s ≤ n := by
  obtain ⟨out, s, h1, -, h3, h4, -⟩ :=
    (Array.lawful sz srt srtS).run ops (fun op _ => okTrue op) (Array.new n) (Array.new_inv sz n)
  exact ⟨out, s, h1, h4, by rw [h4] at h3; exact h3⟩

/-- **C02 (history).** Over any history the elements pushed are exactly those handed back and those
a flush would return. -/
theorem C02_array_conserves_history (n : Nat) (ops : List (Op K V)) :
    ∃ out s, (arrayBlock sz srt srtS).run (Array.new n) ops = .ok (out, s) ∧
      ((arrayBlock sz srt srtS).contents s ++ out).Perm (ops.flatMap Op.given) := by
  obtain ⟨out, s, h1, -, -, -, h5⟩ :=
    (Array.lawful sz srt srtS).run ops (fun op _ => okTrue op) (Array.new n) (Array.new_inv sz n)
  exact ⟨out, s, h1, by simpa [Array.new, Block.contents, arrayBlock, Array.flush] using h5⟩

/-- **C02 (each call).** -/
theorem C02_array_conserves_call (n : Nat) (s : Array K V)
    (hr : Reachable (arrayBlock sz srt srtS) (Array.new n) s) (op : Op K V) :
    ∃ out s', (arrayBlock sz srt srtS).step s op = .ok (out, s') ∧
      ((arrayBlock sz srt srtS).contents s' ++ out).Perm
        ((arrayBlock sz srt srtS).contents s ++ op.given) := by
  have hI := (Array.lawful sz srt srtS).reachable (Array.new_inv sz n) hr
  obtain ⟨out, s', h1, -, -, h4⟩ := (Array.lawful sz srt srtS).step s hI op (okTrue op)
  exact ⟨out, s', h1, h4⟩

/-- **C03.** In every reachable state `size()` is the sum of the sizes of the elements a flush would
return. -/
theorem C03_array_size (n : Nat) (s : Array K V)
    (hr : Reachable (arrayBlock sz srt srtS) (Array.new n) s) :
    (arrayBlock sz srt srtS).size s = total sz ((arrayBlock sz srt srtS).contents s) :=
  ((Array.lawful sz srt srtS).reachable (Array.new_inv sz n) hr).1

/-- **C04.** What `push` stores.  Fits: all stored beside the old elements, nothing returned.  Does
not fit but no larger than the capacity: all stored, only old elements returned.  Larger than the
capacity: all old elements returned, together with the greatest pushed values, no more of them than
needed. -/
theorem C04_array_push [LE V] (hS : ByValue srtS) (n : Nat) (s : Array K V)
    (hr : Reachable (arrayBlock sz srt srtS) (Array.new n) s) (l : List (K × V)) :
    ∃ out s', (arrayBlock sz srt srtS).push s l = .ok (out, s') ∧
      let old := (arrayBlock sz srt srtS).contents s
      let new := (arrayBlock sz srt srtS).contents s'
      (total sz old + total sz l ≤ n → out = [] ∧ new = old ++ l) ∧
      (n < total sz old + total sz l → total sz l ≤ n →
        ∃ kept, new = kept ++ l ∧ (kept ++ out).Perm old) ∧
      (n < total sz l → ∃ rejected, out = old ++ rejected ∧ (new ++ rejected).Perm l ∧
        (∀ x ∈ new, ∀ y ∈ rejected, x.2 ≤ y.2) ∧
        (∃ x rest, rejected = x :: rest ∧ (rest = [] ∨ n < total sz new + sz x))) := by
  have hL := Array.lawful sz srt srtS
  have hI := hL.reachable (Array.new_inv sz n) hr
  have hcap : s.capacity = n := by
    obtain ⟨ops, out, hr⟩ := hr
    obtain ⟨o, s', h1, -, -, h4, -⟩ :=
      hL.run ops (fun op _ => okTrue op) (Array.new n) (Array.new_inv sz n)
    rw [hr] at h1; cases h1; exact h4
  have hts := hI.1
  have hle := hI.2
  change ∃ out s', s.push sz srt srtS l = .ok (out, s') ∧ _
  rcases Array.push_cases sz srt srtS s l hI with ⟨h1, h2⟩ | ⟨h1, h2, h3⟩ |
      ⟨h1, p, q, h2, h3, h4, h5, h6⟩ | ⟨h1, h2, out, a', h3, h4⟩
  · refine ⟨_, _, h2, fun _ => ⟨rfl, rfl⟩, ?_, ?_⟩
    · intro hlt; simp only [Block.contents, arrayBlock, Array.flush] at hlt; omega
    · intro hlt; omega
  · refine ⟨_, _, h3, ?_, fun _ _ => ⟨[], rfl, List.Perm.refl _⟩, ?_⟩
    · intro hlt; simp only [Block.contents, arrayBlock, Array.flush] at hlt; omega
    · intro hlt; omega
  · refine ⟨_, _, h6, ?_, ?_, fun _ => ⟨q, rfl, ?_, ?_, ?_⟩⟩
    · intro hlt; simp only [Block.contents, arrayBlock, Array.flush] at hlt; omega
    · intro _ hlt; omega
    · change (p ++ q).Perm l
      rw [← h2]; exact srtS.perm l
    · intro x hx y hy
      have := hS l
      rw [h2] at this
      exact (List.pairwise_append.1 this).2.2 x hx y hy
    · cases q with
      | nil => exact absurd rfl h3
      | cons x rest =>
        refine ⟨x, rest, rfl, ?_⟩
        rcases h5 x rest rfl with h | h
        · exact Or.inl h
        · right
          have htot := total_perm sz (srtS.perm l)
          rw [h2] at htot
          simp only [total_append, total_cons] at htot
          change n < total sz p + sz x
          omega
  · obtain ⟨o2, a2, g1, -, -, g4, -⟩ :=
      Array.pop_spec sz srt s (total sz l - (s.capacity - s.totalSize)) hI
    rw [h3] at g1; cases g1
    refine ⟨_, _, h4, ?_, fun _ _ => ⟨a'.values, rfl, g4⟩, ?_⟩
    · intro hlt; simp only [Block.contents, arrayBlock, Array.flush] at hlt; omega
    · intro hlt; omega

/-- **C05.** `pop(n)`: what is returned is what is removed, greatest values first.  Either everything
is returned because the size does not exceed `n`, or at least `n` is freed, and minimally: without
the smallest returned element less than `n` would have been freed (or it is the only one). -/
theorem C05_array_pop [LE V] (hS : ByValue srt) (c : Nat) (s : Array K V)
    (hr : Reachable (arrayBlock sz srt srtS) (Array.new c) s) (n : Nat) :
    ∃ out s', (arrayBlock sz srt srtS).pop s n = .ok (out, s') ∧
      let old := (arrayBlock sz srt srtS).contents s
      let new := (arrayBlock sz srt srtS).contents s'
      (new ++ out).Perm old ∧ (∀ x ∈ new, ∀ y ∈ out, x.2 ≤ y.2) ∧
      (total sz old ≤ n → new = []) ∧
      (n < total sz old → n ≤ total sz out ∧
        ∃ x rest, out = x :: rest ∧ (∀ y ∈ rest, x.2 ≤ y.2) ∧ (rest = [] ∨ total sz rest < n)) := by
  have hI := (Array.lawful sz srt srtS).reachable (Array.new_inv sz c) hr
  have hts := hI.1
  change ∃ out s', s.pop sz srt n = .ok (out, s') ∧ _
  rcases Array.pop_cases sz srt s n hI with ⟨h1, h2⟩ | ⟨h1, h2, h3⟩ | ⟨h1, h2, p, q, h3, h4, h5, h6, h7⟩
  · refine ⟨_, _, h2, ?_⟩
    simp only [Block.contents, arrayBlock, Array.flush]
    simp [h1]
  · refine ⟨_, _, h3, ?_⟩
    simp only [Block.contents, arrayBlock, Array.flush]
    refine ⟨by simp, by simp, fun _ => trivial, fun hlt => by omega⟩
  · refine ⟨_, _, h7, ?_⟩
    simp only [Block.contents, arrayBlock, Array.flush]
    have hp := srt.perm s.values
    have ho := hS s.values
    rw [h3] at hp ho
    refine ⟨hp, (List.pairwise_append.1 ho).2.2, fun hlt => by omega, fun _ => ⟨h5, ?_⟩⟩
    cases q with
    | nil => exact absurd rfl h4
    | cons x rest =>
      exact ⟨x, rest, rfl, (List.pairwise_cons.1 (List.pairwise_append.1 ho).2.1).1,
        h6 x rest rfl⟩

/-- **C06 (take).** `contains(k)` says whether `take(k)` returns something; `take` returns an element
with the key asked for and removes exactly this element. -/
theorem C06_array_take (c : Nat) (s : Array K V)
    (hr : Reachable (arrayBlock sz srt srtS) (Array.new c) s) (k : K) :
    ∃ b s₁ o s', (arrayBlock sz srt srtS).contains s k = .ok (b, s₁) ∧ s₁ = s ∧
      (arrayBlock sz srt srtS).take s k = .ok (o, s') ∧
      (b = true ↔ o ≠ none) ∧ (o = none → s' = s) ∧
      (∀ e, o = some e → e.1 = k ∧
        (e :: (arrayBlock sz srt srtS).contents s').Perm ((arrayBlock sz srt srtS).contents s)) := by
  have hI := (Array.lawful sz srt srtS).reachable (Array.new_inv sz c) hr
  obtain ⟨o, s', h1, -, -, h4⟩ := Array.take_spec sz s k hI
  refine ⟨s.contains k, s, o, s', rfl, rfl, h1, ?_, ?_, ?_⟩
  · have hk : s.contains k = true ↔ HasKey s.values k := by simp [Array.contains, HasKey]
    rw [hk]
    cases o with
    | none => simpa using h4.1
    | some e =>
      simp only [ne_eq, reduceCtorEq, not_false_eq_true, iff_true]
      exact ⟨e.2, h4.2.mem_iff.1 (by rw [← h4.1]; simp)⟩
  · rintro rfl; exact h4.2
  · rintro e rfl; exact h4

/-- **C06 (take_multiple).** For every key, exactly min(times requested, times stored) elements are
returned; the keys found are removed from the caller's list and the others stay; nothing else moves. -/
theorem C06_array_take_multiple (c : Nat) (s : Array K V)
    (hr : Reachable (arrayBlock sz srt srtS) (Array.new c) s) (ks : List K) :
    ∃ out ks' s', (arrayBlock sz srt srtS).takeMultiple s ks = .ok (out, ks', s') ∧
      ((arrayBlock sz srt srtS).contents s' ++ out).Perm ((arrayBlock sz srt srtS).contents s) ∧
      (out.map Prod.fst ++ ks').Perm ks ∧
      ∀ k, (out.map Prod.fst).count k =
        min (ks.count k) ((((arrayBlock sz srt srtS).contents s).map Prod.fst).count k) := by
  have hI := (Array.lawful sz srt srtS).reachable (Array.new_inv sz c) hr
  obtain ⟨out, ks', s', h1, -, -, h4, h5, h6⟩ := Array.takeMultiple_spec sz s ks hI
  exact ⟨out, ks', s', h1, h4, h5, h6⟩

end

/-! ## Non-vacuity: a concrete history -/

/-- An array of capacity 3 (sizes 1) holding three elements, reached by two pushes. -/
def demo : Array Nat Nat := { capacity := 3, totalSize := 3, values := [(1, 10), (2, 30), (3, 20)] }

theorem demo_reachable :
    Reachable (arrayBlock (fun _ => 1) natSorter natSorter) (Array.new 3) demo :=
  ⟨[.push [(1, 10), (2, 30)], .push [(3, 20)]], [], rfl⟩

example : (arrayBlock (fun _ => 1) natSorter natSorter).pop demo 2 =
    .ok ([(3, 20), (2, 30)], { capacity := 3, totalSize := 1, values := [(1, 10)] }) := rfl

example : (arrayBlock (fun _ => 1) natSorter natSorter).push demo [(4, 5)] =
    .ok ([(2, 30)], { capacity := 3, totalSize := 3, values := [(1, 10), (3, 20), (4, 5)] }) := rfl

example := C04_array_push (fun _ => 1) natSorter natSorter natSorter_byValue 3 demo demo_reachable
  [(4, 5)]
example := C05_array_pop (fun _ => 1) natSorter natSorter natSorter_byValue 3 demo demo_reachable 2
example := C06_array_take_multiple (fun _ => 1) natSorter natSorter 3 demo demo_reachable [2, 7, 2]

end ArrayProps
end Byoc
