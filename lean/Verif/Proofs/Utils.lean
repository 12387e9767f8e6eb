import Verif.Model.Utils
import Mathlib.Data.Nat.Log
import Mathlib.Tactic.Ring

/-!
# log2, chunk_size, ExclusiveHasher, KMin: proofs
-/

namespace Byoc

/-! ## log2 -/

theorem log2Loop_eq (n : Nat) : ∀ i, 0 < n → log2Loop n i = i + Nat.log 2 n + 1 := by
  induction n using Nat.strong_induction_on with
  | _ n ih =>
    intro i hn
    rw [log2Loop]
    simp only [Nat.ne_of_gt hn, if_false]
    by_cases h2 : n < 2
    · have : n = 1 := by omega
      subst this
      simp [log2Loop]
    · have hl : Nat.log 2 n = Nat.log 2 (n / 2) + 1 :=
        Nat.log_of_one_lt_of_le (by decide : 1 < 2) (by omega)
      rw [ih (n / 2) (by omega) (i + 1) (by omega), hl]
      omega

theorem log2_eq (n : Nat) (hn : 0 < n) : log2 n = Nat.log 2 n := by
  simp [log2, Nat.ne_of_gt hn, log2Loop_eq n 0 hn]

theorem log2_le (n : Nat) (hn : 0 < n) : 2 ^ log2 n ≤ n := by
  rw [log2_eq n hn]; exact Nat.pow_log_le_self 2 (Nat.ne_of_gt hn)

theorem lt_log2 (n : Nat) : n < 2 ^ (log2 n + 1) := by
  by_cases hn : n = 0
  · subst hn; simp [log2]
  · rw [log2_eq n (by omega)]; exact Nat.lt_pow_succ_log_self (by decide) n

theorem log2_lt_64 (n : Nat) (hn : n < 2 ^ 64) : log2 n < 64 := by
  by_cases h0 : n = 0
  · subst h0; simp [log2]
  · have := log2_le n (by omega)
    exact (Nat.pow_lt_pow_iff_right (by decide : 1 < 2)).1 (lt_of_le_of_lt this hn)

/-! ## ExclusiveHasher -/

namespace ExclusiveHasher

/-- The hasher selects `nbits` bits of the hash, starting at bit `rshift`. -/
structure Wf (x : ExclusiveHasher) (n : Nat) : Prop where
  bits : x.nbits = log2 n + 1
  fits : x.rshift + x.nbits ≤ 64
  mask : ∀ i, i < 64 → x.mask.getLsbD i = decide (x.rshift ≤ i ∧ i < x.rshift + x.nbits)

theorem lsb_ones (k i : Nat) (_ : i < 64) (hk : k ≤ 64) :
    ((BitVec.allOnes 64) >>> (64 - k)).getLsbD i = decide (i < k) := by
  simp only [BitVec.getLsbD_ushiftRight, BitVec.getLsbD_allOnes]
  congr 1
  exact propext ⟨fun h => by omega, fun h => by omega⟩

theorem new_wf (n : Nat) (hn : n < 2 ^ 64) : ∃ x, new n = .ok x ∧ Wf x n ∧ x.rshift = 0 := by
  have h64 := log2_lt_64 n hn
  have h1 : Res.sub 64 (log2 n + 1) = .ok (64 - (log2 n + 1)) := Res.sub_ok (by omega)
  have h2 : (64 - (log2 n + 1)) < 64 := by omega
  refine ⟨⟨BitVec.allOnes 64 >>> (64 - (log2 n + 1)), 0, log2 n + 1⟩, ?_, ⟨rfl, ?_, ?_⟩, rfl⟩
  · simp only [new, h1, Res.ok_bind, shr, h2, if_true, Res.pure_eq]
  · simp only []; omega
  · intro i hi
    simp only []
    rw [lsb_ones _ i hi (by omega)]
    congr 1
    exact propext ⟨fun h => by omega, fun h => by omega⟩

theorem next_wf (x : ExclusiveHasher) (n m : Nat) (hm : m < 2 ^ 64) (_ : Wf x n) :
    (64 < x.rshift + x.nbits + (log2 m + 1) → next x m = .ok none) ∧
    (x.rshift + x.nbits + (log2 m + 1) ≤ 64 →
      ∃ y, next x m = .ok (some y) ∧ Wf y m ∧ y.rshift = x.rshift + x.nbits) := by
  have h64 := log2_lt_64 m hm
  constructor
  · intro h
    simp only [next]
    rw [if_pos (by omega)]; rfl
  · intro h
    have h1 : Res.sub 64 (log2 m + 1) = .ok (64 - (log2 m + 1)) := Res.sub_ok (by omega)
    have h2 : (64 - (log2 m + 1)) < 64 := by omega
    have h3 : x.nbits + x.rshift < 64 := by omega
    refine ⟨⟨(BitVec.allOnes 64 >>> (64 - (log2 m + 1))) <<< (x.nbits + x.rshift),
      x.nbits + x.rshift, log2 m + 1⟩, ?_, ⟨rfl, ?_, ?_⟩, ?_⟩
    · simp only [next]
      rw [if_neg (by omega)]
      simp only [h1, Res.ok_bind, shr, h2, if_true, shl, h3, Res.pure_eq]
    · simp only []; omega
    · intro i hi
      simp only [BitVec.getLsbD_shiftLeft, hi, decide_true, Bool.true_and]
      by_cases hlt : i < x.nbits + x.rshift
      · simp [hlt]
      · rw [lsb_ones _ _ (by omega) (by omega)]
        simp only [hlt, decide_false, Bool.not_false, Bool.true_and]
        congr 1
        exact propext ⟨fun h => by omega, fun h => by omega⟩
    · simp only []; omega

theorem finish_eq (x : ExclusiveHasher) (n : Nat) (hx : Wf x n) (h : BitVec 64) :
    ∃ r, x.finish h = .ok r ∧ r.toNat = (h.toNat >>> x.rshift) % 2 ^ x.nbits := by
  have h0 : x.rshift < 64 := by have := hx.fits; have := hx.bits; omega
  refine ⟨(h &&& x.mask) >>> x.rshift, by simp [finish, shr, h0], ?_⟩
  apply Nat.eq_of_testBit_eq
  intro i
  rw [Nat.testBit_mod_two_pow, Nat.testBit_shiftRight, BitVec.testBit_toNat, BitVec.testBit_toNat,
    BitVec.getLsbD_ushiftRight, BitVec.getLsbD_and]
  by_cases hb : x.rshift + i < 64
  · rw [hx.mask _ hb]
    rw [Bool.and_comm]
    congr 2
    exact propext ⟨fun h => by omega, fun h => by omega⟩
  · have := BitVec.getLsbD_of_ge h (x.rshift + i) (by omega)
    simp [this]

/-- The hashers of a chain occupy consecutive ranges of bits. -/
inductive Consecutive : Nat → List ExclusiveHasher → List Nat → Prop
  | nil (p) : Consecutive p [] []
  | cons {p x n xs ns} : Wf x n → x.rshift = p → Consecutive (p + x.nbits) xs ns →
      Consecutive p (x :: xs) (n :: ns)

/-- Number of bits used by layers with these numbers of sets. -/
def bitsOf (ns : List Nat) : Nat := (ns.map fun n => log2 n + 1).sum

theorem layers_spec (ns : List Nat) : ∀ (x : ExclusiveHasher) (n : Nat), (∀ m ∈ ns, m < 2 ^ 64) →
    Wf x n →
    (64 < x.rshift + x.nbits + bitsOf ns → layers x ns = .panic) ∧
    (x.rshift + x.nbits + bitsOf ns ≤ 64 →
      ∃ ys, layers x ns = .ok ys ∧ Consecutive (x.rshift + x.nbits) ys ns) := by
  induction ns with
  | nil =>
    intro x n _ hx
    refine ⟨fun h => ?_, fun _ => ⟨[], rfl, .nil _⟩⟩
    have := hx.fits; simp [bitsOf] at h; omega
  | cons m ns ih =>
    intro x n hb hx
    obtain ⟨h1, h2⟩ := next_wf x n m (hb m (by simp)) hx
    have hsum : bitsOf (m :: ns) = (log2 m + 1) + bitsOf ns := by simp [bitsOf]
    by_cases hf : x.rshift + x.nbits + (log2 m + 1) ≤ 64
    · obtain ⟨y, e1, e2, e3⟩ := h2 hf
      obtain ⟨i1, i2⟩ := ih y m (fun k hk => hb k (by simp [hk])) e2
      have hy : y.rshift + y.nbits = x.rshift + x.nbits + (log2 m + 1) := by rw [e3, e2.bits]
      refine ⟨fun h => ?_, fun h => ?_⟩
      · simp [layers, e1, i1 (by omega)]
      · obtain ⟨ys, f1, f2⟩ := i2 (by omega)
        refine ⟨y :: ys, by simp [layers, e1, f1], .cons e2 e3 ?_⟩
        rw [← e3]; exact f2
    · refine ⟨fun _ => ?_, fun h => by omega⟩
      simp [layers, h1 (by omega), Res.unwrap]

theorem chain_spec (ns : List Nat) (hb : ∀ m ∈ ns, m < 2 ^ 64) :
    (64 < bitsOf ns → chain ns = .panic) ∧
    (bitsOf ns ≤ 64 → ∃ xs, chain ns = .ok xs ∧ Consecutive 0 xs ns) := by
  cases ns with
  | nil => exact ⟨fun h => by simp [bitsOf] at h, fun _ => ⟨[], rfl, .nil _⟩⟩
  | cons n ns =>
    obtain ⟨x, e1, e2, e3⟩ := new_wf n (hb n (by simp))
    obtain ⟨i1, i2⟩ := layers_spec ns x n (fun m hm => hb m (by simp [hm])) e2
    have hsum : bitsOf (n :: ns) = (log2 n + 1) + bitsOf ns := by simp [bitsOf]
    have hx : x.rshift + x.nbits = log2 n + 1 := by rw [e3, e2.bits]; omega
    refine ⟨fun h => by simp [chain, e1, i1 (by omega)], fun h => ?_⟩
    obtain ⟨ys, f1, f2⟩ := i2 (by omega)
    refine ⟨x :: ys, by simp [chain, e1, f1], .cons e2 e3 ?_⟩
    rw [← e3]; exact f2

theorem Consecutive.length {p xs ns} (h : Consecutive p xs ns) : xs.length = ns.length := by
  induction h with
  | nil => rfl
  | cons _ _ _ ih => simp [ih]

/-- Every hasher of a chain starting at bit `p` uses bits from `p` on. -/
theorem Consecutive.get {p xs ns} (h : Consecutive p xs ns) (i : Nat) (x : ExclusiveHasher)
    (hi : xs[i]? = some x) : ∃ n, ns[i]? = some n ∧ Wf x n ∧ p ≤ x.rshift := by
  induction h generalizing i with
  | nil => simp at hi
  | @cons p y n xs ns hw hr _ ih =>
    cases i with
    | zero => simp at hi; subst hi; exact ⟨n, by simp, hw, by omega⟩
    | succ i =>
      simp only [List.getElem?_cons_succ] at hi ⊢
      obtain ⟨m, a, b, c⟩ := ih i hi
      exact ⟨m, a, b, by omega⟩

theorem Consecutive.ordered {p xs ns} (h : Consecutive p xs ns) (i j : Nat) (x y : ExclusiveHasher)
    (hij : i < j) (hi : xs[i]? = some x) (hj : xs[j]? = some y) : x.rshift + x.nbits ≤ y.rshift := by
  induction h generalizing i j with
  | nil => simp at hi
  | @cons p z n xs ns hw hr hc ih =>
    cases j with
    | zero => omega
    | succ j =>
      cases i with
      | zero =>
        simp only [List.getElem?_cons_zero, Option.some.injEq] at hi
        subst hi
        simp only [List.getElem?_cons_succ] at hj
        obtain ⟨m, a, b, c⟩ := hc.get j y hj
        omega
      | succ i => exact ih i j (by omega) (by simpa using hi) (by simpa using hj)

/-- All combinations of values of the layers are reached. -/
theorem Consecutive.reach {p xs ns} (h : Consecutive p xs ns) (hp : p + bitsOf ns ≤ 64) :
    ∀ idx : List Nat, idx.length = ns.length → (∀ (i a b : Nat), idx[i]? = some a → ns[i]? = some b → a < 2 ^ (log2 b + 1)) →
    ∃ u, u < 2 ^ bitsOf ns ∧ ∀ low, low < 2 ^ p → ∀ (i : Nat) (x : ExclusiveHasher) (a : Nat), xs[i]? = some x → idx[i]? = some a →
      ((u * 2 ^ p + low) >>> x.rshift) % 2 ^ x.nbits = a := by
  induction h with
  | nil p => intro idx _ _; exact ⟨0, by simp [bitsOf], by simp⟩
  | @cons p x n xs ns hw hr hc ih =>
    intro idx hl hidx
    have hsum : bitsOf (n :: ns) = (log2 n + 1) + bitsOf ns := by simp [bitsOf]
    cases idx with
    | nil => simp at hl
    | cons a idx =>
      have ha : a < 2 ^ (log2 n + 1) := hidx 0 a n (by simp) (by simp)
      rw [← hw.bits] at ha hsum
      obtain ⟨u, hu, hu'⟩ := ih (by omega) idx (by simpa using hl)
        (fun i a b h1 h2 => hidx (i + 1) a b (by simpa using h1) (by simpa using h2))
      refine ⟨u * 2 ^ x.nbits + a, ?_, ?_⟩
      · rw [hsum, Nat.pow_add]
        calc u * 2 ^ x.nbits + a < u * 2 ^ x.nbits + 2 ^ x.nbits := by omega
          _ = (u + 1) * 2 ^ x.nbits := by ring
          _ ≤ 2 ^ bitsOf ns * 2 ^ x.nbits := Nat.mul_le_mul_right _ hu
          _ = _ := by ring
      · intro low hlow i y b hy hb
        cases i with
        | zero =>
          simp only [List.getElem?_cons_zero, Option.some.injEq] at hy hb
          subst hy; subst hb
          rw [hr, Nat.shiftRight_eq_div_pow]
          have : ((u * 2 ^ x.nbits + a) * 2 ^ p + low) / 2 ^ p = u * 2 ^ x.nbits + a := by
            rw [Nat.mul_comm, Nat.mul_add_div (Nat.two_pow_pos p), Nat.div_eq_of_lt hlow]; rfl
          rw [this, Nat.mul_comm, Nat.mul_add_mod, Nat.mod_eq_of_lt ha]
        | succ i =>
          have := hu' (a * 2 ^ p + low) (by
            rw [Nat.pow_add]
            calc a * 2 ^ p + low < a * 2 ^ p + 2 ^ p := by omega
              _ = (a + 1) * 2 ^ p := by ring
              _ ≤ 2 ^ x.nbits * 2 ^ p := Nat.mul_le_mul_right _ ha
              _ = _ := by ring) i y b (by simpa using hy) (by simpa using hb)
          rw [← this]
          congr 2
          rw [Nat.pow_add]; ring

end ExclusiveHasher

/-! ## KMin -/

namespace KMin

variable {T : Type} [LinearOrder T]

theorem lt_irrefl (a : T × Nat) : ¬ lt a a := by simp [lt]

theorem lt_trans {a b c : T × Nat} (h : lt a b) (h' : lt b c) : lt a c := by
  unfold lt at *
  rcases h with h | ⟨h, h2⟩ <;> rcases h' with g | ⟨g, g2⟩
  · exact Or.inl (h.trans g)
  · exact Or.inl (g ▸ h)
  · exact Or.inl (h ▸ g)
  · exact Or.inr ⟨h.trans g, by omega⟩

theorem lt_total {a b : T × Nat} (h : a ≠ b) (h' : ¬ lt a b) : lt b a := by
  unfold lt at *
  push Not at h'
  rcases lt_trichotomy a.1 b.1 with g | g | g
  · exact absurd g (not_lt.2 h'.1)
  · have := h'.2 g
    refine Or.inr ⟨g.symm, ?_⟩
    rcases Nat.lt_or_ge b.2 a.2 with x | x
    · exact x
    · exact absurd (Prod.ext g (by omega)) h
  · exact Or.inl g

/-- `sz` of a list of items. -/
abbrev sum (l : List (T × Nat)) : Nat := total Prod.snd l

theorem insert_perm (e : T × Nat) (l : List (T × Nat)) : (insert e l).Perm (e :: l) := by
  induction l with
  | nil => exact List.Perm.refl _
  | cons x l ih =>
    simp only [insert]
    split
    · exact List.Perm.refl _
    · exact (ih.cons x).trans (List.Perm.swap e x l)

theorem insert_sorted (e : T × Nat) (l : List (T × Nat)) (hl : l.Pairwise lt) (he : e ∉ l) :
    (insert e l).Pairwise lt := by
  induction l with
  | nil => simp [insert]
  | cons x l ih =>
    simp only [insert]
    rw [List.pairwise_cons] at hl
    simp only [List.mem_cons, not_or] at he
    split
    · rename_i hlt
      refine List.pairwise_cons.2 ⟨fun y hy => ?_, List.pairwise_cons.2 hl⟩
      rcases List.mem_cons.1 hy with rfl | hy
      · exact hlt
      · exact lt_trans hlt (hl.1 y hy)
    · rename_i hlt
      refine List.pairwise_cons.2 ⟨fun y hy => ?_, ih hl.2 he.2⟩
      rcases List.mem_cons.1 ((insert_perm e l).subset hy) with rfl | hy
      · exact lt_total he.1 hlt
      · exact hl.1 y hy

theorem trim_spec (max : Nat) (l : List (T × Nat)) : ∀ size, size = sum l →
    ∃ d k, trim max l size = .ok (k, sum k) ∧ l = d ++ k ∧ (d ≠ [] → max ≤ sum k) ∧
      (k = [] ∨ ∃ x r, k = x :: r ∧ sum r < max) := by
  induction l with
  | nil => intro size h; exact ⟨[], [], by simp [trim, h], rfl, by simp, Or.inl rfl⟩
  | cons e l ih =>
    intro size h
    obtain ⟨x, s⟩ := e
    simp only [sum, total_cons] at h
    have h1 : Res.sub size s = .ok (total Prod.snd l) := by rw [Res.sub_ok (by omega)]; congr 1; omega
    simp only [trim, h1, Res.ok_bind]
    split
    · rename_i hlt
      exact ⟨[], (x, s) :: l, by simp [h], rfl, by simp, Or.inr ⟨_, _, rfl, hlt⟩⟩
    · rename_i hge
      obtain ⟨d, k, a, b, c, g⟩ := ih _ rfl
      refine ⟨(x, s) :: d, k, a, by simp [b], fun _ => ?_, g⟩
      by_cases hd : d = []
      · subst hd; simp only [List.nil_append] at b; subst b; simp only [sum]; omega
      · exact c hd

/-- What a `KMin` holds after the elements of `seen` were pushed. -/
structure Inv (m : KMin T) (seen : List (T × Nat)) : Prop where
  size : m.size = sum m.items
  sorted : m.items.Pairwise lt
  sub : ∀ x ∈ m.items, x ∈ seen
  top : ∀ d ∈ seen, d ∉ m.items → ∀ x ∈ m.items, lt d x
  enough : (∃ d ∈ seen, d ∉ m.items) → m.max ≤ sum m.items

theorem new_inv (k : Nat) : Inv (new k : KMin T) [] :=
  ⟨rfl, List.Pairwise.nil, by simp [new], by simp, by simp⟩

theorem push_spec (m : KMin T) (seen : List (T × Nat)) (h : Inv m seen) (x : T) (s : Nat) :
    ∃ b m', push m x s = .ok (b, m') ∧ Inv m' (seen ++ [(x, s)]) ∧ m'.max = m.max ∧
      (b = false ↔ (x, s) ∈ m.items) ∧
      ((∀ e ∈ seen, e.2 = s) → (∀ y r, m.items = y :: r → sum r < m.max) →
        ∀ y r, m'.items = y :: r → sum r < m.max) := by
  unfold push
  split
  · rename_i hm
    refine ⟨false, m, rfl, ⟨h.size, h.sorted, fun y hy => by simp [h.sub y hy], ?_, ?_⟩, rfl,
      by simp [hm], fun _ hr => hr⟩
    · intro d hd hn
      rcases List.mem_append.1 hd with hd | hd
      · exact h.top d hd hn
      · simp at hd; subst hd; exact absurd hm hn
    · rintro ⟨d, hd, hn⟩
      rcases List.mem_append.1 hd with hd | hd
      · exact h.enough ⟨d, hd, hn⟩
      · simp at hd; subst hd; exact absurd hm hn
  · rename_i hm
    have hsub : Res.sub (m.size + s) s = .ok m.size := by rw [Res.sub_ok (by omega)]; congr 1; omega
    simp only [hsub, Res.ok_bind]
    have hp := insert_perm (x, s) m.items
    have hs := insert_sorted (x, s) m.items h.sorted hm
    have ht : sum (insert (x, s) m.items) = m.size + s := by
      rw [sum, total_perm _ hp, total_cons, h.size]; simp only [sum]; omega
    split
    · rename_i hlt
      have hall : ∀ d ∈ seen, d ∈ m.items := by
        intro d hd
        by_contra hn
        have := h.enough ⟨d, hd, hn⟩
        have := h.size; omega
      refine ⟨true, _, rfl, ⟨ht.symm, hs, ?_, ?_, ?_⟩, rfl, by simp [hm], ?_⟩
      · intro y hy
        rcases List.mem_cons.1 (hp.subset hy) with rfl | hy
        · simp
        · simp [h.sub y hy]
      · intro d hd hn
        exfalso; apply hn
        rcases List.mem_append.1 hd with hd | hd
        · exact hp.symm.subset (List.mem_cons_of_mem _ (hall d hd))
        · simp at hd; subst hd; exact hp.symm.subset (by simp)
      · rintro ⟨d, hd, hn⟩
        exfalso; apply hn
        rcases List.mem_append.1 hd with hd | hd
        · exact hp.symm.subset (List.mem_cons_of_mem _ (hall d hd))
        · simp at hd; subst hd; exact hp.symm.subset (by simp)
      · intro heq _ y r hyr
        simp only at hyr
        have hy : y.2 = s := by
          have : y ∈ insert (x, s) m.items := by rw [hyr]; simp
          rcases List.mem_cons.1 (hp.subset this) with rfl | hy
          · rfl
          · exact heq y (h.sub y hy)
        rw [hyr] at ht
        simp only [sum, total_cons, hy] at ht ⊢
        omega
    · rename_i hge
      obtain ⟨d, k, a, b, c, g⟩ := trim_spec m.max (insert (x, s) m.items) (m.size + s) ht.symm
      simp only [a, Res.ok_bind]
      have hks : k.Pairwise lt := by rw [b] at hs; exact (List.pairwise_append.1 hs).2.1
      have hdk : ∀ y ∈ d, ∀ z ∈ k, lt y z := by rw [b] at hs; exact (List.pairwise_append.1 hs).2.2
      have hkmem : ∀ z ∈ k, z ∈ insert (x, s) m.items := fun z hz => by rw [b]; simp [hz]
      have henough : (∃ y ∈ seen ++ [(x, s)], y ∉ k) → m.max ≤ sum k := by
        rintro ⟨y, hy, hn⟩
        by_cases hd : d = []
        · subst hd
          simp only [List.nil_append] at b
          rw [← b, ht]; omega
        · exact c hd
      refine ⟨true, _, rfl, ⟨rfl, hks, ?_, ?_, henough⟩, rfl, by simp [hm], ?_⟩
      · intro y hy
        rcases List.mem_cons.1 (hp.subset (hkmem y hy)) with rfl | hy
        · simp
        · simp [h.sub y hy]
      · -- everything not kept is below everything kept
        intro y hy hn z hz
        simp only at hn hz
        by_cases hyi : y ∈ insert (x, s) m.items
        · rw [b] at hyi
          rcases List.mem_append.1 hyi with h1 | h1
          · exact hdk y h1 z hz
          · exact absurd h1 hn
        · -- y was dropped before
          have hy1 : y ∈ seen := by
            rcases List.mem_append.1 hy with hy | hy
            · exact hy
            · simp at hy; subst hy; exact absurd (hp.symm.subset (by simp)) hyi
          have hy2 : y ∉ m.items := fun hh => hyi (hp.symm.subset (List.mem_cons_of_mem _ hh))
          rcases List.mem_cons.1 (hp.subset (hkmem z hz)) with rfl | hz2
          · -- z is the new element: it was kept, so there is an old element below it
            by_cases hex : ∃ w ∈ m.items, lt w (x, s)
            · obtain ⟨w, hw, hlt⟩ := hex
              exact lt_trans (h.top y hy1 hy2 w hw) hlt
            · exfalso
              push Not at hex
              -- the new element is the smallest, and is dropped
              have hmax : m.max ≤ sum m.items := h.enough ⟨y, hy1, hy2⟩
              have hins : insert (x, s) m.items = (x, s) :: m.items := by
                cases hmi : m.items with
                | nil => rfl
                | cons w r =>
                  rw [hmi] at hex hm
                  have hw := hex w (by simp)
                  have : lt (x, s) w := lt_total (fun e => hm (by simp [← e])) hw
                  simp [insert, this]
              rw [hins] at b
              cases d with
              | nil =>
                simp only [List.nil_append] at b
                rcases g with g | ⟨q, r, g1, g2⟩
                · rw [g] at hz; simp at hz
                · rw [g1] at b
                  injection b with b1 b2
                  subst b2; omega
              | cons q d =>
                simp only [List.cons_append, List.cons.injEq] at b
                have : (x, s) ∈ m.items := by rw [b.2]; simp [hz]
                exact hm this
          · exact h.top y hy1 hy2 z hz2
      · intro heq _ y r hyr
        simp only at hyr
        rcases g with g | ⟨q, r', g1, g2⟩
        · rw [g] at hyr; simp at hyr
        · rw [g1] at hyr; injection hyr with e1 e2; subst e2; exact g2

theorem pushAll_spec (l : List (T × Nat)) : ∀ (m : KMin T) (seen : List (T × Nat)), Inv m seen →
    ∃ m', pushAll m l = .ok m' ∧ Inv m' (seen ++ l) ∧ m'.max = m.max ∧
      ∀ c, (∀ e ∈ seen ++ l, e.2 = c) → (∀ y r, m.items = y :: r → sum r < m.max) →
        ∀ y r, m'.items = y :: r → sum r < m.max := by
  induction l with
  | nil => intro m seen h; exact ⟨m, rfl, by simpa using h, rfl, fun _ _ hr => hr⟩
  | cons e l ih =>
    intro m seen h
    obtain ⟨x, s⟩ := e
    obtain ⟨b, m1, e1, e2, e3, -, e5⟩ := push_spec m seen h x s
    obtain ⟨m2, f1, f2, f3, f4⟩ := ih m1 _ e2
    refine ⟨m2, by simp [pushAll, e1, f1], by simpa using f2, f3.trans e3, ?_⟩
    intro c hc hr
    rw [e3] at f4
    refine f4 c (fun e he => hc e (by simpa using he)) (e5 (fun e he => ?_) hr)
    rw [hc e (by simp [he]), ← hc (x, s) (by simp)]

end KMin
end Byoc
