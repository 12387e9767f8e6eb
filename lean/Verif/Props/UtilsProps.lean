import Verif.Proofs.Utils

/-!
# C21 – C23: hash bits of stacked associative layers, binary logarithms, top elements
-/

namespace Byoc
namespace UtilsProps

/-! ## C21 -/

/-- What the stacked layers of an associative container need from their hashers, one per layer with
the numbers of sets `ns`, stated without the masks: `sel i h` is the value layer `i` computes from the
hash `h`. -/
structure GoodLayers (ns : List Nat) (sel : Nat → BitVec 64 → Nat) : Prop where
  /-- The values of a layer range over at least its sets, and less than twice as many values. -/
  range : ∀ (i n : Nat), ns[i]? = some n → ∀ h, sel i h < 2 ^ (Nat.log 2 n + 1)
  /-- Disjoint: each layer reads its own set of bits of the hash. -/
  disjoint : ∃ bits : Nat → Nat → Prop,
    (∀ i j b, i < j → j < ns.length → ¬ (bits i b ∧ bits j b)) ∧
    ∀ i h h', i < ns.length → (∀ b, bits i b → h.getLsbD b = h'.getLsbD b) → sel i h = sel i h'
  /-- Any choice of one value per layer is the choice of some hash. -/
  independent : ∀ idx : List Nat, idx.length = ns.length →
    (∀ (i a n : Nat), idx[i]? = some a → ns[i]? = some n → a < 2 ^ (Nat.log 2 n + 1)) →
    ∃ h, ∀ (i a : Nat), idx[i]? = some a → sel i h = a

/-- **C21.** Building stacked associative layers with `n₀, n₁, …` sets: if the bits needed exceed 64
the builder panics, otherwise it succeeds and every layer selects its set with bits of the hash no
other layer uses, and all the combinations of sets are used. -/
theorem C21_exclusive_hashers (ns : List Nat) (hpos : ∀ n ∈ ns, 0 < n) (hns : ∀ n ∈ ns, n < 2 ^ 64) :
    if (ns.map fun n => Nat.log 2 n + 1).sum ≤ 64 then
      ∃ xs, ExclusiveHasher.chain ns = .ok xs ∧ xs.length = ns.length ∧
      ∃ sel, GoodLayers ns sel ∧
        ∀ (i : Nat) (x : ExclusiveHasher), xs[i]? = some x →
          (∀ h, ∃ r, x.finish h = .ok r ∧ r.toNat = sel i h) ∧
          (∀ n, ns[i]? = some n → ∀ h, x.set n h = .ok (sel i h % n))
    else ExclusiveHasher.chain ns = .panic := by
  have hb : ∀ n ∈ ns, log2 n = Nat.log 2 n := fun n hn => log2_eq n (hpos n hn)
  have hbits : ExclusiveHasher.bitsOf ns = (ns.map fun n => Nat.log 2 n + 1).sum := by
    unfold ExclusiveHasher.bitsOf
    congr 1
    exact List.map_congr_left fun n hn => by rw [hb n hn]
  rw [← hbits]
  obtain ⟨h1, h2⟩ := ExclusiveHasher.chain_spec ns hns
  split
  · rename_i hle
    obtain ⟨xs, e1, e2⟩ := h2 hle
    have hlen := e2.length
    have hget : ∀ i, i < ns.length → ∃ x n, xs[i]? = some x ∧ ns[i]? = some n ∧
        ExclusiveHasher.Wf x n := by
      intro i hi
      have hx : xs[i]? = some (xs[i]'(by omega)) := List.getElem?_eq_getElem _
      obtain ⟨n, a, b, -⟩ := e2.get i _ hx
      exact ⟨_, n, hx, a, b⟩
    let sel : Nat → BitVec 64 → Nat := fun i h =>
      match xs[i]? with
      | some x => (h.toNat >>> x.rshift) % 2 ^ x.nbits
      | none => 0
    have hsel : ∀ (i : Nat) (x : ExclusiveHasher), xs[i]? = some x → ∀ h,
        sel i h = (h.toNat >>> x.rshift) % 2 ^ x.nbits := by
      intro i x hx h; simp only [sel, hx]
    refine ⟨xs, e1, hlen, sel, ⟨?_, ?_, ?_⟩, ?_⟩
    · intro i n hn h
      have hi : i < ns.length := (List.getElem?_eq_some_iff.1 hn).1
      obtain ⟨x, m, a, b, c⟩ := hget i hi
      rw [hn] at b; cases b
      rw [hsel i x a, ← hb n (List.mem_of_getElem? hn), ← c.bits]
      exact Nat.mod_lt _ (Nat.two_pow_pos _)
    · refine ⟨fun i b => ∃ x, xs[i]? = some x ∧ x.rshift ≤ b ∧ b < x.rshift + x.nbits, ?_, ?_⟩
      · rintro i j b hij hj ⟨⟨x, hx, hx1, hx2⟩, ⟨y, hy, hy1, hy2⟩⟩
        have := e2.ordered i j x y hij hx hy
        omega
      · intro i h h' hi hh
        obtain ⟨x, m, a, b, c⟩ := hget i hi
        rw [hsel i x a, hsel i x a]
        apply Nat.eq_of_testBit_eq
        intro t
        rw [Nat.testBit_mod_two_pow, Nat.testBit_shiftRight, Nat.testBit_mod_two_pow,
          Nat.testBit_shiftRight, BitVec.testBit_toNat, BitVec.testBit_toNat]
        by_cases ht : t < x.nbits
        · rw [hh (x.rshift + t) ⟨x, a, by omega, by omega⟩]
        · simp [ht]
    · intro idx hl hidx
      obtain ⟨u, hu, hu'⟩ := e2.reach (by omega) idx hl (fun i a b ha hb' => by
        rw [hb b (List.mem_of_getElem? hb')]; exact hidx i a b ha hb')
      have hu64 : u < 2 ^ 64 := lt_of_lt_of_le hu (Nat.pow_le_pow_right (by decide) hle)
      refine ⟨BitVec.ofNat 64 u, fun i a ha => ?_⟩
      have hi : i < ns.length := by rw [← hl]; exact (List.getElem?_eq_some_iff.1 ha).1
      obtain ⟨x, m, hx, b, c⟩ := hget i hi
      rw [hsel i x hx, BitVec.toNat_ofNat, Nat.mod_eq_of_lt hu64]
      simpa using hu' 0 (by simp) i x a hx ha
    · intro i x hx
      obtain ⟨n, a, b, -⟩ := e2.get i x hx
      constructor
      · intro h
        obtain ⟨r, r1, r2⟩ := ExclusiveHasher.finish_eq x n b h
        exact ⟨r, r1, by rw [r2, hsel i x hx]⟩
      · intro m hm h
        rw [a] at hm; cases hm
        obtain ⟨r, r1, r2⟩ := ExclusiveHasher.finish_eq x n b h
        have : n ≠ 0 := Nat.ne_of_gt (hpos n (List.mem_of_getElem? a))
        simp [ExclusiveHasher.set, r1, this, r2, hsel i x hx]
  · rename_i hgt
    exact h1 (by omega)

/-- In particular every combination of *set indexes* of the layers is reached by some hash. -/
theorem C21_all_sets_reached (ns : List Nat) (hns : ∀ n ∈ ns, n < 2 ^ 64)
    (hfit : (ns.map fun n => Nat.log 2 n + 1).sum ≤ 64) (idx : List Nat)
    (hl : idx.length = ns.length) (hidx : ∀ (i a n : Nat), idx[i]? = some a → ns[i]? = some n → a < n) :
    ∃ xs, ExclusiveHasher.chain ns = .ok xs ∧ xs.length = ns.length ∧
      ∃ h, ∀ (i n a : Nat) (x : ExclusiveHasher), xs[i]? = some x → ns[i]? = some n →
        idx[i]? = some a → x.set n h = .ok a := by
  have hpos : ∀ n ∈ ns, 0 < n := by
    intro n hn
    obtain ⟨i, hi⟩ := List.mem_iff_getElem?.1 hn
    have hlt : i < idx.length := by rw [hl]; exact (List.getElem?_eq_some_iff.1 hi).1
    have := hidx i _ n (List.getElem?_eq_getElem hlt) hi
    omega
  have := C21_exclusive_hashers ns hpos hns
  rw [if_pos hfit] at this
  obtain ⟨xs, e1, e2, sel, hg, hs⟩ := this
  obtain ⟨h, hh⟩ := hg.independent idx hl (fun i a n ha hn =>
    lt_trans (hidx i a n ha hn) (Nat.lt_pow_succ_log_self (by decide) n))
  refine ⟨xs, e1, e2, h, fun i n a x hx hn ha => ?_⟩
  rw [(hs i x hx).2 n hn h, hh i a ha, Nat.mod_eq_of_lt (hidx i a n ha hn)]

/-- Three layers of 7, 2 and 5 sets fit (3 + 2 + 3 bits); 22 layers of 7 sets do not. -/
example : ([7, 2, 5].map fun n => Nat.log 2 n + 1).sum = 8 := by decide
example : ¬ ((List.replicate 22 7).map fun n => Nat.log 2 n + 1).sum ≤ 64 := by decide

/-! ## C22 -/

/-- **C22 (log2).** `log2(n)` is the floor of the binary logarithm. -/
theorem C22_log2 (n : Nat) (hn : 0 < n) : 2 ^ log2 n ≤ n ∧ n < 2 ^ (log2 n + 1) :=
  ⟨log2_le n hn, lt_log2 n⟩

/-- **C22 (chunk_size).** For a size that has a power of two above it in 64 bits, `chunk_size` gives
the smallest power of two that is at least the size, and its exponent, which is a valid index in the
64 streams. -/
theorem C22_chunk_size (n : Nat) (hn : 0 < n) (hmax : n ≤ 2 ^ 63) :
    ∃ i c, chunkSize n = .ok (i, c) ∧ c = 2 ^ i ∧ n ≤ c ∧ i < 64 ∧ ∀ j, n ≤ 2 ^ j → c ≤ 2 ^ j := by
  have h1 := log2_le n hn
  have h2 := lt_log2 n
  have h3 : log2 n ≤ 63 := by
    have := (Nat.pow_le_pow_iff_right (by decide : 1 < 2)).1 (h1.trans hmax); exact this
  unfold chunkSize
  by_cases he : 2 ^ log2 n = n
  · simp only [he, if_true]
    exact ⟨log2 n, n, rfl, he.symm, le_refl n, by omega, fun j hj => hj⟩
  · simp only [he, if_false]
    have h4 : log2 n + 1 < 64 := by
      by_contra hc
      have h63 : log2 n = 63 := by omega
      rw [h63] at h1 he
      omega
    rw [if_pos h4]
    refine ⟨_, _, rfl, rfl, by omega, h4, fun j hj => ?_⟩
    apply Nat.pow_le_pow_right (by decide)
    have : 2 ^ log2 n < 2 ^ j := by omega
    exact (Nat.pow_lt_pow_iff_right (by decide : 1 < 2)).1 this

/-- Boundary: an element of serialised size 0 (e.g. of type `((), ())`) takes a chunk of 2 bytes, twice
what is needed. -/
theorem C22_chunk_size_zero : chunkSize 0 = .ok (1, 2) := by
  simp [chunkSize, log2]

example : chunkSize 33 = .ok (6, 64) := by
  have h : log2 33 = 5 := by rw [log2_eq 33 (by decide)]; decide
  simp [chunkSize, h]

/-! ## C23 -/

section
variable {T : Type} [LinearOrder T]

/-- Lexicographic order on sized items. -/
def Below (a b : T × Nat) : Prop := a.1 < b.1 ∨ (a.1 = b.1 ∧ a.2 < b.2)

/-- `kept` are the greatest of `all`, enough of them to reach `max`. -/
structure Top (max : Nat) (all kept : List (T × Nat)) : Prop where
  nodup : kept.Nodup
  sub : ∀ x ∈ kept, x ∈ all
  greatest : ∀ d ∈ all, d ∉ kept → ∀ x ∈ kept, Below d x
  enough : (∀ d ∈ all, d ∈ kept) ∨ max ≤ (kept.map Prod.snd).sum

/-- None of `kept` could be left out: without its smallest item it would not reach `max`. -/
def Tight (max : Nat) (kept : List (T × Nat)) : Prop :=
  ∀ x ∈ kept, (∀ y ∈ kept, y ≠ x → Below x y) → (kept.map Prod.snd).sum - x.2 < max

end

/-- **C23, full statement.** After any sequence of pushes, a `KMin` holds the greatest items, enough
of them to reach `max` and no more. -/
def C23_full : Prop :=
  ∀ (max : Nat) (l : List (Nat × Nat)), ∃ m, (KMin.new max).pushAll l = .ok m ∧
    Top max l m.items ∧ Tight max m.items

/-- **C23, proved part.** A `KMin` never panics, and holds the greatest items, enough of them to reach
`max` (or all of them).  Missing: that there are no more of them than needed, which is false
(`C23_false`). -/
theorem C23_partial {T : Type} [LinearOrder T] (max : Nat) (l : List (T × Nat)) :
    ∃ m, (KMin.new max).pushAll l = .ok m ∧ Top max l m.items ∧
      m.size = (m.items.map Prod.snd).sum := by
  obtain ⟨m, h1, h2, h3, -⟩ := KMin.pushAll_spec l (KMin.new max) [] (KMin.new_inv max)
  simp only [List.nil_append] at h2
  refine ⟨m, h1, ⟨?_, h2.sub, h2.top, ?_⟩, h2.size⟩
  · exact h2.sorted.imp (fun {a b} (hlt : KMin.lt a b) (he : a = b) => KMin.lt_irrefl a (by rw [← he] at hlt; exact hlt))
  · by_cases hall : ∀ d ∈ l, d ∈ m.items
    · exact Or.inl hall
    · push Not at hall
      exact Or.inr (by have := h2.enough hall; rw [h3] at this; exact this)

/-- **C23, items of equal sizes.** Then there are no more items than needed. -/
theorem C23_equal_sizes {T : Type} [LinearOrder T] (max c : Nat) (l : List (T × Nat))
    (hc : ∀ e ∈ l, e.2 = c) :
    ∃ m, (KMin.new max).pushAll l = .ok m ∧ Top max l m.items ∧ Tight max m.items := by
  obtain ⟨m, h1, h2, -⟩ := C23_partial max l
  obtain ⟨m', h1', h2', h3', h4'⟩ := KMin.pushAll_spec l (KMin.new max) [] (KMin.new_inv max)
  rw [h1] at h1'; cases h1'
  refine ⟨m, h1, h2, ?_⟩
  intro x hx hmin
  have ht := h4' c (by simpa using hc) (by simp [KMin.new])
  have hs := h2'.sorted
  cases hk : m.items with
  | nil => rw [hk] at hx; simp at hx
  | cons y r =>
    have hy := ht y r hk
    rw [hk] at hx hs hmin
    have hxy : x = y := by
      rcases List.mem_cons.1 hx with h | h
      · exact h
      · by_contra hne
        have h1 := (List.pairwise_cons.1 hs).1 x h
        have h2 := hmin y (by simp) (fun e => hne e.symm)
        exact KMin.lt_irrefl _ (KMin.lt_trans h1 h2)
    subst hxy
    simp only [List.map_cons, List.sum_cons, KMin.new] at hy ⊢
    simp only [KMin.sum, total] at hy
    omega

/-- **C23 is false in full**: with a small item then a large greater one, both are kept although the
second suffices. -/
theorem C23_false : ¬ C23_full := by
  intro h
  obtain ⟨m, h1, -, h3⟩ := h 5 [(1, 1), (2, 10)]
  have hm : (KMin.new 5 : KMin Nat).pushAll [(1, 1), (2, 10)] = .ok ⟨[(1, 1), (2, 10)], 5, 11⟩ := by
    decide
  rw [hm] at h1
  cases h1
  have := h3 (1, 1) (by simp) (by simp [Below])
  simp at this

/-- The items of the repository's own test, for which the answer is tight. -/
example : (KMin.new 5 : KMin Nat).pushAll [(2, 4), (3, 4), (4, 1), (5, 1), (1, 1)] =
    .ok ⟨[(3, 4), (4, 1), (5, 1)], 5, 6⟩ := by decide

end UtilsProps
end Byoc
