import Verif.Proofs.Layers
import Verif.Props.UtilsProps
import Verif.Props.ArrayProps
import Mathlib.Data.Nat.ModEq
import Mathlib.Data.Nat.GCD.BigOperators

/-! # C66, C67: how much an associative container in layers can hold -/

namespace Byoc
namespace LayerProps

open ArrayProps

variable {K V : Type} [LinearOrder K]

/-- `size()` is `m` after some history on a new container of layers `ls` with Arrays of capacity `c`. -/
def Reaches (srt srtS : Sorter (K × V)) (c : Nat) (ls : List (Nat × (K → Nat))) (m : Nat) : Prop :=
  ∃ ops out s', (Layers.stack srt srtS ls).block.run (Layers.new srt srtS c ls) ops = .ok (out, s') ∧
    (Layers.stack srt srtS ls).block.size s' = m

theorem reaches_of_paths (srt srtS : Sorter (K × V)) (c : Nat) (v : V) (ls : List (Nat × (K → Nat)))
    (hpos : ∀ p ∈ ls, 0 < p.1) (P : List (List Nat)) (hnd : P.Nodup)
    (hkey : ∀ p ∈ P, ∃ k, Layers.path ls k = p) : Reaches srt srtS c ls (P.length * c) := by
  obtain ⟨l, s', h1, h2⟩ := Layers.size_reached srt srtS c ls hpos v P hnd hkey
  exact ⟨[.push l], [], s', by simp [Block.run, Block.step, h1], h2⟩

/-- Least common multiple of the numbers of a list. -/
def lcmAll (ns : List Nat) : Nat := ns.foldr Nat.lcm 1

theorem dvd_lcmAll {n : Nat} {ns : List Nat} (h : n ∈ ns) : n ∣ lcmAll ns := by
  induction ns with
  | nil => simp at h
  | cons m ns ih =>
    rcases List.mem_cons.1 h with rfl | h
    · exact Nat.dvd_lcm_left _ _
    · exact (ih h).trans (Nat.dvd_lcm_right _ _)

theorem lcmAll_dvd {m : Nat} {ns : List Nat} (h : ∀ n ∈ ns, n ∣ m) : lcmAll ns ∣ m := by
  induction ns with
  | nil => exact one_dvd m
  | cons n ns ih => exact Nat.lcm_dvd (h n (by simp)) (ih fun x hx => h x (by simp [hx]))

theorem lcmAll_pos {ns : List Nat} (h : ∀ n ∈ ns, 0 < n) : 0 < lcmAll ns := by
  induction ns with
  | nil => exact Nat.one_pos
  | cons n ns ih => exact Nat.lcm_pos (h n (by simp)) (ih fun x hx => h x (by simp [hx]))

/-- **C66, as a user reads it:** whatever the layers of nested associative configurations, when every
hash value is the hash of some key, the container can be filled up to its capacity. -/
def C66_full : Prop :=
  ∀ (K V : Type) [LinearOrder K] (srt srtS : Sorter (K × V)) (hash : K → Nat), Function.Surjective hash →
    Nonempty V → ∀ (ns : List Nat), (∀ n ∈ ns, 0 < n) → ∀ c : Nat,
      Reaches srt srtS c (Layers.ofConfig hash ns)
        ((Layers.stack srt srtS (Layers.ofConfig hash ns)).block.capacity
          (Layers.new srt srtS c (Layers.ofConfig hash ns)))

theorem capacity_new (srt srtS : Sorter (K × V)) (c : Nat) (ls : List (Nat × (K → Nat)))
    (hpos : ∀ p ∈ ls, 0 < p.1) :
    (Layers.stack srt srtS ls).block.capacity (Layers.new srt srtS c ls) = (ls.map Prod.fst).prod * c :=
  Layers.capacity_eq srt srtS c ls _ (Layers.new_inv srt srtS c ls hpos).1

omit [LinearOrder K] in
theorem ofConfig_pos {hash : K → Nat} {ns : List Nat} (h : ∀ n ∈ ns, 0 < n) :
    ∀ p ∈ Layers.ofConfig hash ns, 0 < p.1 := by
  intro p hp
  obtain ⟨n, hn, rfl⟩ := List.mem_map.1 hp
  exact h n hn

omit [LinearOrder K] in
theorem path_ofConfig (hash : K → Nat) (ns : List Nat) (k : K) :
    Layers.path (Layers.ofConfig hash ns) k = ns.map (hash k % ·) := by
  simp [Layers.path, Layers.ofConfig, List.map_map, Function.comp_def]

/-- **C66 (exact).** The layers of a configuration all use the same hash, so an element whose hash is
`h` only ever goes to the sets `h % n₀, h % n₁, …`: whatever is called, the container never holds more
than `lcm(n₀, n₁, …)` Arrays full although it has `n₀ · n₁ · …` of them; and it can hold that much. -/
theorem C66_exact (srt srtS : Sorter (K × V)) (hash : K → Nat) (ns : List Nat) (hns : ∀ n ∈ ns, 0 < n)
    (c : Nat) :
    (Layers.stack srt srtS (Layers.ofConfig hash ns)).block.capacity
      (Layers.new srt srtS c (Layers.ofConfig hash ns)) = ns.prod * c ∧
    (∀ m, Reaches srt srtS c (Layers.ofConfig hash ns) m → m ≤ lcmAll ns * c) ∧
    (Function.Surjective hash → Nonempty V →
      Reaches srt srtS c (Layers.ofConfig hash ns) (lcmAll ns * c)) := by
  have hpos := ofConfig_pos (hash := hash) hns
  have hL := lcmAll_pos hns
  refine ⟨?_, ?_, ?_⟩
  · rw [capacity_new srt srtS c _ hpos]
    simp [Layers.ofConfig, List.map_map, Function.comp_def]
  · rintro m ⟨ops, out, s', h1, rfl⟩
    have := Layers.size_le srt srtS c (Layers.ofConfig hash ns) hpos
      ((List.range (lcmAll ns)).map fun r => ns.map (r % ·)) (fun k => by
        rw [path_ofConfig, List.mem_map]
        refine ⟨hash k % lcmAll ns, List.mem_range.2 (Nat.mod_lt _ hL), ?_⟩
        exact List.map_congr_left fun n hn => Nat.mod_mod_of_dvd _ (dvd_lcmAll hn)) ops out s' h1
    simpa using this
  · rintro hsur ⟨v⟩
    have := reaches_of_paths srt srtS c v (Layers.ofConfig hash ns) hpos
      ((List.range (lcmAll ns)).map fun r => ns.map (r % ·)) (by
        refine List.Nodup.map_on ?_ List.nodup_range
        intro r hr r' hr' h
        rw [List.mem_range] at hr hr'
        have hmod : ∀ n ∈ ns, r ≡ r' [MOD n] := fun n hn => List.map_inj_left.1 h n hn
        have key : ∀ a b : Nat, a ≤ b → b < lcmAll ns → (∀ n ∈ ns, a ≡ b [MOD n]) → a = b := by
          intro a b hab hb hm
          have : lcmAll ns ∣ b - a := lcmAll_dvd fun n hn => (Nat.modEq_iff_dvd' hab).1 (hm n hn)
          have := Nat.eq_zero_of_dvd_of_lt this (by omega)
          omega
        rcases Nat.le_total r r' with hle | hle
        · exact key r r' hle hr' hmod
        · exact (key r' r hle hr fun n hn => (hmod n hn).symm).symm) (by
        intro p hp
        obtain ⟨r, -, rfl⟩ := List.mem_map.1 hp
        obtain ⟨k, rfl⟩ := hsur r
        exact ⟨k, path_ofConfig hash ns k⟩)
    simpa using this

/-- **C66 (partial: coprime layers).** If the numbers of sets of the layers are pairwise coprime (in
particular with a single layer), the container can be filled up to its capacity. -/
theorem C66_partial (srt srtS : Sorter (K × V)) (hash : K → Nat) (hsur : Function.Surjective hash)
    (hV : Nonempty V) (ns : List Nat) (hns : ∀ n ∈ ns, 0 < n) (hcop : ns.Pairwise Nat.Coprime) (c : Nat) :
    Reaches srt srtS c (Layers.ofConfig hash ns)
      ((Layers.stack srt srtS (Layers.ofConfig hash ns)).block.capacity
        (Layers.new srt srtS c (Layers.ofConfig hash ns))) := by
  obtain ⟨h1, -, h3⟩ := C66_exact srt srtS hash ns hns c
  have : lcmAll ns = ns.prod := by
    clear h1 h3 hns
    induction ns with
    | nil => rfl
    | cons n ns ih =>
      rw [List.pairwise_cons] at hcop
      have e := ih hcop.2
      change Nat.lcm n (lcmAll ns) = _
      rw [e, List.prod_cons]
      exact Nat.Coprime.lcm_eq_mul (Nat.coprime_list_prod_right_iff.2 hcop.1)
  rw [h1, ← this]
  exact h3 hsur hV

/-- **C66 is false:** 2 sets of 2 Arrays of capacity 1 announce a capacity of 4 and never hold more than
2 elements. -/
theorem C66_false : ¬ C66_full := by
  intro h
  obtain ⟨h1, h2, -⟩ := C66_exact natSorter natSorter id [2, 2] (by decide) 1
  have := h Nat Nat natSorter natSorter id Function.surjective_id ⟨0⟩ [2, 2] (by decide) 1
  rw [h1] at this
  exact absurd (h2 _ this) (by decide)

/-! ## C67: layers added with the builder -/

/-- All the choices of one set per layer. -/
def choices : List Nat → List (List Nat)
  | [] => [[]]
  | n :: ns => (List.range n).flatMap fun i => (choices ns).map (i :: ·)

theorem choices_length (ns : List Nat) : (choices ns).length = ns.prod := by
  induction ns with
  | nil => rfl
  | cons n ns ih =>
    simp only [choices, List.length_flatMap, List.length_map, List.prod_cons, ih]
    rw [List.map_const', List.length_range, Layers.sum_rep]

theorem choices_nodup (ns : List Nat) : (choices ns).Nodup := by
  induction ns with
  | nil => simp [choices]
  | cons n ns ih =>
    rw [choices, List.nodup_flatMap]
    refine ⟨fun i _ => ih.map fun a b h => (List.cons.inj h).2, ?_⟩
    refine List.nodup_range.pairwise_of_forall_ne fun i _ j _ hij => ?_
    intro l h1 h2
    obtain ⟨a, -, rfl⟩ := List.mem_map.1 h1
    obtain ⟨b, -, h⟩ := List.mem_map.1 h2
    exact hij (List.cons.inj h).1.symm

theorem mem_choices {ns : List Nat} {idx : List Nat} : idx ∈ choices ns ↔
    idx.length = ns.length ∧ ∀ (i a n : Nat), idx[i]? = some a → ns[i]? = some n → a < n := by
  induction ns generalizing idx with
  | nil =>
    cases idx with
    | nil => simp [choices]
    | cons a idx => simp [choices]
  | cons n ns ih =>
    cases idx with
    | nil => simp [choices]
    | cons a idx =>
      simp only [choices, List.mem_flatMap, List.mem_range, List.mem_map, List.cons.injEq]
      constructor
      · rintro ⟨b, hb, y, hy, rfl, rfl⟩
        obtain ⟨e1, e2⟩ := ih.1 hy
        refine ⟨by simp [e1], ?_⟩
        intro i x m hx hm
        cases i with
        | zero => simp at hx hm; omega
        | succ i => exact e2 i x m (by simpa using hx) (by simpa using hm)
      · rintro ⟨e1, e2⟩
        refine ⟨a, e2 0 a n (by simp) (by simp), idx, ih.2 ⟨by simpa using e1, ?_⟩, rfl, rfl⟩
        intro i x m hx hm
        exact e2 (i + 1) x m (by simpa using hx) (by simpa using hm)

/-- **C67.** A layered associative container made by the builder (`new` then `add_layer`s) can be filled
up to its capacity, whatever the numbers of sets, as long as the layers need at most 64 bits of hash
(otherwise building panics) and every hash value is the hash of some key. -/
theorem C67_builder_layers_fill (srt srtS : Sorter (K × V)) (hash : K → BitVec 64)
    (hsur : Function.Surjective hash) (hV : Nonempty V) (ns : List Nat) (hpos : ∀ n ∈ ns, 0 < n)
    (hns : ∀ n ∈ ns, n < 2 ^ 64) (c : Nat) :
    if (ns.map fun n => Nat.log 2 n + 1).sum ≤ 64 then
      ∃ ls, Layers.ofBuilder hash ns = .ok ls ∧
        (Layers.stack srt srtS ls).block.capacity (Layers.new srt srtS c ls) = ns.prod * c ∧
        Reaches srt srtS c ls (ns.prod * c)
    else Layers.ofBuilder hash ns = .panic := by
  split
  · next hfit =>
    have h21 := UtilsProps.C21_exclusive_hashers ns hpos hns
    rw [if_pos hfit] at h21
    obtain ⟨xs, e1, e2, sel, -, hs⟩ := h21
    refine ⟨((ns.zip xs).map fun p => (p.1, fun k => Layers.value p.2 (hash k))).reverse,
      by simp [Layers.ofBuilder, e1], ?_⟩
    generalize hls : ((ns.zip xs).map fun p => (p.1, fun k => Layers.value p.2 (hash k))).reverse = ls
    have hlp : ∀ p ∈ ls, 0 < p.1 := by
      intro p hp
      rw [← hls, List.mem_reverse] at hp
      obtain ⟨q, hq, rfl⟩ := List.mem_map.1 hp
      exact hpos _ (List.of_mem_zip hq).1
    have hfst : (ls.map Prod.fst).prod = ns.prod := by
      rw [← hls, List.map_reverse, List.prod_reverse, List.map_map]
      congr 1
      have : (Prod.fst ∘ fun p : Nat × ExclusiveHasher => (p.1, fun k => Layers.value p.2 (hash k))) =
        Prod.fst := rfl
      rw [this, List.map_fst_zip (by omega)]
    refine ⟨by rw [capacity_new srt srtS c ls hlp, hfst], ?_⟩
    obtain ⟨v⟩ := hV
    rw [← choices_length ns, ← List.length_map (f := List.reverse)]
    refine reaches_of_paths srt srtS c v ls hlp _
      ((choices_nodup ns).map List.reverse_injective) ?_
    intro p hp
    obtain ⟨idx, hidx, rfl⟩ := List.mem_map.1 hp
    obtain ⟨hl, hi⟩ := mem_choices.1 hidx
    obtain ⟨xs', f1, f2, h, hh⟩ := UtilsProps.C21_all_sets_reached ns hns hfit idx hl hi
    rw [e1] at f1; cases f1
    obtain ⟨k, rfl⟩ := hsur h
    refine ⟨k, ?_⟩
    rw [← hls, Layers.path, List.map_reverse, List.map_map]
    congr 1
    apply List.ext_getElem?
    intro i
    rw [List.getElem?_map]
    cases hx : xs[i]? with
    | none =>
      have h1 := List.getElem?_eq_none_iff.1 hx
      rw [List.getElem?_eq_none (by simp; omega), List.getElem?_eq_none (by omega)]
      rfl
    | some x =>
      have h1 := (List.getElem?_eq_some_iff.1 hx).1
      obtain ⟨n, hn⟩ : ∃ n, ns[i]? = some n := ⟨_, List.getElem?_eq_getElem (by omega)⟩
      obtain ⟨a, ha⟩ : ∃ a, idx[i]? = some a := ⟨_, List.getElem?_eq_getElem (by omega)⟩
      have hz : (ns.zip xs)[i]? = some (n, x) := List.getElem?_zip_eq_some.2 ⟨hn, hx⟩
      rw [hz, ha]
      have := hh i n a x hx hn ha
      obtain ⟨r, hr, -⟩ := (hs i x hx).1 (hash k)
      have hn0 : n ≠ 0 := Nat.ne_of_gt (hpos n (List.mem_of_getElem? hn))
      simp only [ExclusiveHasher.set, hr, Res.ok_bind, hn0, if_false, Res.pure_eq, Res.ok.injEq] at this
      simp [Layers.value, hr, this]
  · next hfit =>
    have h21 := UtilsProps.C21_exclusive_hashers ns hpos hns
    rw [if_neg hfit] at h21
    simp [Layers.ofBuilder, h21]

/-- The two layers of the counterexample to C66, made by the builder, do fill up. -/
example : ∃ ls, Layers.ofBuilder (fun k : Nat => BitVec.ofNat 64 k) [2, 2] = .ok ls ∧
    (Layers.stack natSorter natSorter ls).block.capacity (Layers.new natSorter natSorter 1 ls) = 4 ∧
    Reaches natSorter natSorter 1 ls 4 := by
  have := C67_builder_layers_fill natSorter natSorter (fun k : Nat => BitVec.ofNat 64 k)
    (fun b => ⟨b.toNat, by simp⟩) ⟨0⟩ [2, 2] (by decide) (by decide) 1
  rw [if_pos (by decide)] at this
  exact this

/-- 2 and 3 sets are coprime. -/
example : [2, 3].Pairwise Nat.Coprime := by decide

end LayerProps
end Byoc
