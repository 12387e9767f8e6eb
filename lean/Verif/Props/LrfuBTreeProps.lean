import Verif.Model.LrfuBTree
import Verif.Proofs.F32
import Verif.Proofs.BTree

/-!
# C105: a `BTree` decorated with `Lrfu`
-/

namespace Byoc.LrfuBTreeProps

open Byoc.F32 List

variable {K V : Type} [LinearOrder K]

/-- An exponent `LrfuCell::new` accepts, other than NaN. -/
def Good (e : F32) : Prop := e = .inf ∨ ∃ q : ℚ, 0 < q ∧ e = .fin q

/-- The keys held. -/
def Held (s : LrfuBTree.State K V) (k : K) : Prop := k ∈ s.map.map Prod.fst

/-- Keys are not repeated within a batch. -/
def Distinct : LrfuBTree.Call K V → Prop
  | .push l => (l.map Prod.fst).Nodup
  | _ => True

/-- Full statement: as any decorated container, it hands back an element taken, looks up what it holds, holds as much as
`size()` tells, and no call panics (the counter is far from its limits). -/
def C105_full : Prop := ∀ (e : F32), Good e → ∀ (n : Nat) (cs : List (LrfuBTree.Call Nat Nat)), (∀ c ∈ cs, Distinct c) →
  ∃ out s, LrfuBTree.execs e (LrfuBTree.new n 0) cs = .ok (out, s) ∧ s.totalSize = s.map.length ∧ s.totalSize ≤ n ∧
    ∀ k, Held s k → ∃ v s', LrfuBTree.exec e s (.take k) = .ok ([(k, v)], s')

/-! ## Scores -/

theorem nearest_nat {n : Nat} (h : n ≤ 2 ^ 24) : nearest (n : ℚ) = n := (nat_rep h).nearest

theorem round_nat {n : Nat} (h : n ≤ 2 ^ 24) : F32.round (n : ℚ) = .fin n := by
  rw [round_fin]
  · rw [nearest_nat h]
  · rw [nearest_nat h]
    have : (n : ℚ) ≤ 2 ^ 24 := by exact_mod_cast h
    have h2 : (2 : ℚ) ^ 24 < 2 ^ 128 := by norm_num
    linarith

theorem fin_zero_div {e : F32} (he : Good e) : (F32.fin 0).div e = .fin 0 := by
  rcases he with rfl | ⟨q, hq, rfl⟩
  · rfl
  · simp only [F32.div, if_neg hq.ne', _root_.zero_div]
    exact_mod_cast round_nat (n := 0) (by norm_num)

/-- The score of a cell that was not used since it was made is its age. -/
theorem score_new {e : F32} (he : Good e) {t0 t : Nat} (h : t - t0 ≤ 2 ^ 24) :
    (LrfuStats32.new e t0).score t = .fin (t - t0 : Nat) := by
  simp only [LrfuStats32.score, LrfuStats32.new, tsDiff32, fin_zero_div he, round_nat h, F32.add, add_zero]

/-- A cell made at `t0`. -/
def made (e : F32) (v : V) (t0 : Nat) : LrfuCell32 V := ⟨v, .new e t0⟩

/-- Two cells made at `a` and `b`, compared at `t`. -/
theorem cmp_made {e : F32} (he : Good e) (v w : V) {a b t : Nat} (ha : a ≤ t) (hb : b ≤ t) (hta : t ≤ a + 2 ^ 24)
    (htb : t + 1 ≤ b + 2 ^ 24) :
    (made e v a).cmp t (t + 1) (made e w b) = compare (b : Nat) (a + 1) := by
  simp only [LrfuCell32.cmp, made, score_new he (show t - a ≤ 2 ^ 24 by omega), score_new he (show t + 1 - b ≤ 2 ^ 24 by omega),
    F32.partialCmp, Option.getD_some]
  rcases lt_trichotomy b (a + 1) with h | h | h
  · rw [(compare_lt_iff_lt (a := b)).2 h, compare_lt_iff_lt]; exact_mod_cast (by omega : t - a < t + 1 - b)
  · rw [(compare_eq_iff_eq (a := b)).2 h, compare_eq_iff_eq]; exact_mod_cast (by omega : t - a = t + 1 - b)
  · rw [(compare_gt_iff_gt (a := b)).2 h, compare_gt_iff_gt]; exact_mod_cast (by omega : t - a > t + 1 - b)

/-- **C105 (comparison).** A cell is less than itself. -/
theorem C105_self {e : F32} (he : Good e) (v : V) {a t : Nat} (ha : a ≤ t) (ht : t + 1 ≤ a + 2 ^ 24) :
    (made e v a).cmp t (t + 1) (made e v a) = .lt := by
  rw [cmp_made he v v ha ha (by omega) ht]; exact compare_lt_iff_lt.2 (by omega)

/-! ## Searching the set -/

open LrfuBTree (State cmpPair search setRemove insertUnchecked pushCells)

theorem search_now (x : LrfuCell32 V × K) (l : List (LrfuCell32 V × K)) : ∀ now,
    now ≤ (search x now l).2.2 ∧ (search x now l).2.2 ≤ now + 2 * l.length ∧ (search x now l).2.1 ≤ l.length := by
  induction l with
  | nil => intro now; simp [search]
  | cons y l ih =>
    intro now
    have := ih (now + 2)
    simp only [search, length_cons]
    generalize search x (now + 2) l = r at *
    obtain ⟨b, i, n⟩ := r
    cases cmpPair now x y <;> simp only at * <;> omega

/-- What is found is equal. -/
theorem search_found (x : LrfuCell32 V × K) (l : List (LrfuCell32 V × K)) : ∀ now, (search x now l).1 = true →
    ∃ y t, l[(search x now l).2.1]? = some y ∧ now ≤ t ∧ t + 2 ≤ (search x now l).2.2 ∧ cmpPair t x y = .eq := by
  induction l with
  | nil => intro now h; simp [search] at h
  | cons y l ih =>
    intro now h
    simp only [search] at h ⊢
    cases hc : cmpPair now x y <;> simp only [hc] at h ⊢
    · simp at h
    · exact ⟨y, now, by simp, le_rfl, le_rfl, hc⟩
    · obtain ⟨z, t, h1, h2, h3, h4⟩ := ih (now + 2) h
      exact ⟨z, t, by simpa using h1, by omega, h3, h4⟩

/-- What is passed is smaller. -/
theorem search_passed (x : LrfuCell32 V × K) (l : List (LrfuCell32 V × K)) : ∀ now c, c < (search x now l).2.1 →
    ∃ y t, l[c]? = some y ∧ now ≤ t ∧ t + 2 ≤ (search x now l).2.2 ∧ cmpPair t x y = .gt := by
  induction l with
  | nil => intro now c h; simp [search] at h
  | cons y l ih =>
    intro now c h
    simp only [search] at h ⊢
    cases hc : cmpPair now x y <;> simp only [hc] at h ⊢
    · simp at h
    · simp at h
    · cases c with
      | zero => exact ⟨y, now, by simp, le_rfl, (search_now x l (now + 2)).1, hc⟩
      | succ c =>
        obtain ⟨z, t, h1, h2, h3, h4⟩ := ih (now + 2) c (by simpa using h)
        exact ⟨z, t, by simpa using h1, by omega, h3, h4⟩

/-- What stops the search is not smaller. -/
theorem search_stop (x : LrfuCell32 V × K) (l : List (LrfuCell32 V × K)) : ∀ now y, l[(search x now l).2.1]? = some y →
    ∃ t, now ≤ t ∧ t + 2 ≤ (search x now l).2.2 ∧ cmpPair t x y ≠ .gt := by
  induction l with
  | nil => intro now y h; simp [search] at h
  | cons z l ih =>
    intro now y h
    simp only [search] at h ⊢
    cases hc : cmpPair now x z <;> simp only [hc] at h ⊢
    · simp at h; subst h; exact ⟨now, le_rfl, le_rfl, by rw [hc]; simp⟩
    · simp at h; subst h; exact ⟨now, le_rfl, le_rfl, by rw [hc]; simp⟩
    · obtain ⟨t, h2, h3, h4⟩ := ih (now + 2) y (by simpa using h)
      exact ⟨t, by omega, h3, h4⟩

theorem cmpPair_eq {t : Nat} {x y : LrfuCell32 V × K} (h : cmpPair t x y = .eq) : x.1.cmp t (t + 1) y.1 = .eq ∧ x.2 = y.2 := by
  unfold cmpPair at h
  cases hc : x.1.cmp t (t + 1) y.1 <;> rw [hc] at h
  · cases h
  · exact ⟨rfl, compare_eq_iff_eq.1 h⟩
  · cases h

/-! ## The invariant -/

/-- The cells were made between `z` and `now` and not used since. -/
def Fresh (e : F32) (z now : Nat) (m : List (K × LrfuCell32 V)) : Prop := ∀ x ∈ m, ∃ v t0, z ≤ t0 ∧ t0 < now ∧ x.2 = made e v t0

/-- When an element was pushed. -/
abbrev age (x : K × LrfuCell32 V) : Nat := x.2.stats.last

structure Core (e : F32) (z : Nat) (s : State K V) : Prop where
  agree : (s.set.map Prod.swap).Perm s.map
  nodup : (s.map.map Prod.fst).Nodup
  fresh : Fresh e z s.now s.map
  sorted : s.set.Pairwise (fun x y => y.1.stats.last < x.1.stats.last)
  start : z ≤ s.now

structure Inv (e : F32) (z : Nat) (s : State K V) : Prop extends Core e z s where
  total : s.map.length ≤ s.totalSize
  cap : s.map.length ≤ s.capacity

omit [LinearOrder K] in
theorem Fresh.mono {e : F32} {z a b : Nat} {m : List (K × LrfuCell32 V)} (h : Fresh e z a m) (hab : a ≤ b) : Fresh e z b m :=
  fun x hx => by obtain ⟨v, t, h0, h1, h2⟩ := h x hx; exact ⟨v, t, h0, by omega, h2⟩

omit [LinearOrder K] in
theorem Core.mem_set {e : F32} {z : Nat} {s : State K V} (h : Core e z s) {c : LrfuCell32 V} {k : K} :
    (c, k) ∈ s.set ↔ (k, c) ∈ s.map := by
  rw [← h.agree.mem_iff, mem_map]
  constructor
  · intro hx; exact ⟨_, hx, rfl⟩
  · rintro ⟨⟨a, b⟩, h1, h2⟩; cases h2; exact h1

omit [LinearOrder K] in
theorem Core.length {e : F32} {z : Nat} {s : State K V} (h : Core e z s) : s.set.length = s.map.length := by
  have := h.agree.length_eq; simpa using this

/-- The element searched is never found, as it is less than itself. -/
theorem not_found {e : F32} (he : Good e) {z : Nat} {s : State K V} (h : Core e z s) {k : K} {c : LrfuCell32 V}
    (hk : (k, c) ∈ s.map) (hn : (search (c, k) s.now s.set).2.2 ≤ z + 2 ^ 24) : (search (c, k) s.now s.set).1 = false := by
  by_contra hf
  obtain ⟨⟨c', k'⟩, t, h1, h2, h3, h4⟩ := search_found (c, k) s.set s.now (by simpa using hf)
  obtain ⟨h5, rfl⟩ := cmpPair_eq h4
  have hm := h.mem_set.1 (mem_of_getElem? h1)
  obtain rfl := BTree.eq_of_nodup_keys h.nodup hk hm
  obtain ⟨v, t0, g0, g1, g2⟩ := h.fresh _ hk
  simp only at g2 h5
  rw [g2, C105_self he v (by omega) (by omega)] at h5
  cases h5

/-- The search ends at the element itself or one before. -/
theorem search_near {e : F32} (he : Good e) {z : Nat} {s : State K V} (h : Core e z s) {x : LrfuCell32 V × K} {c : Nat}
    (hc : s.set[c]? = some x) (hn : (search x s.now s.set).2.2 ≤ z + 2 ^ 24) :
    (search x s.now s.set).2.1 ≤ c ∧ c ≤ (search x s.now s.set).2.1 + 1 := by
  obtain ⟨v, t0, g0, g1, g2⟩ := h.fresh (x.2, x.1) (h.mem_set.1 (mem_of_getElem? hc))
  simp only at g2
  have hle : (search x s.now s.set).2.1 ≤ c := by
    by_contra hf
    obtain ⟨y, t, h1, h2, h3, h4⟩ := search_passed x s.set s.now c (by omega)
    rw [hc] at h1; cases h1
    unfold cmpPair at h4
    rw [g2, C105_self he v (by omega) (by omega)] at h4
    cases h4
  refine ⟨hle, ?_⟩
  by_contra hf
  have hcl : c < s.set.length := by by_contra hx; rw [getElem?_eq_none (by omega)] at hc; cases hc
  rw [getElem?_eq_getElem hcl] at hc
  have hil : (search x s.now s.set).2.1 < s.set.length := by omega
  obtain ⟨t, q1, q2, q3⟩ := search_stop x s.set s.now _ (getElem?_eq_getElem hil)
  have hcl1 : c - 1 < s.set.length := by omega
  have s1 := pairwise_iff_getElem.1 h.sorted _ _ hil hcl1 (by omega)
  have s2 := pairwise_iff_getElem.1 h.sorted _ _ hcl1 hcl (by omega)
  obtain ⟨w, t1, r0, r1, r2⟩ := h.fresh (_, _) (h.mem_set.1 (getElem_mem hil))
  simp only at r2
  simp only [Option.some.injEq] at hc
  rw [hc, g2] at s2
  replace r2 : s.set[(search x s.now s.set).2.1].1 = made e w t1 := r2
  rw [r2] at s1
  simp only [made, LrfuStats32.new] at s1 s2
  unfold cmpPair at q3
  rw [r2, g2, cmp_made he v w (by omega) (by omega) (by omega) (by omega), compare_gt_iff_gt.2 (by omega)] at q3
  exact q3 rfl

theorem find_held {m : List (K × LrfuCell32 V)} (hn : (m.map Prod.fst).Nodup) {k : K} {c : LrfuCell32 V} (h : (k, c) ∈ m) :
    m.find? (fun e => decide (e.1 = k)) = some (k, c) := by
  cases hf : m.find? (fun e => decide (e.1 = k)) with
  | none => rw [find?_eq_none] at hf; exact absurd (by simp) (hf _ h)
  | some x =>
    have h1 := mem_of_find?_eq_some hf
    have h2 := find?_some hf
    obtain ⟨k', c'⟩ := x
    simp only [decide_eq_true_eq] at h2
    subst h2
    rw [BTree.eq_of_nodup_keys hn h h1]

theorem take_held {e : F32} (he : Good e) {z : Nat} {s : State K V} (h : Core e z s) {k : K} (hk : Held s k)
    (hn : s.now + 2 * s.map.length ≤ z + 2 ^ 24) : LrfuBTree.take s k = .panic := by
  obtain ⟨⟨k', c⟩, hm, rfl⟩ := mem_map.1 hk
  have hb := (search_now (c, k') s.set s.now).2.1
  rw [h.length] at hb
  have hf := not_found he h hm (by omega)
  simp only [LrfuBTree.take, find_held h.nodup hm, setRemove]
  unfold Res.sub
  split
  · simp only [Res.ok_bind, hf]
    rw [if_pos]
    simp only [Bool.false_eq_true, if_false, any_eq_true, decide_eq_true_eq]
    exact ⟨_, h.mem_set.2 hm, rfl⟩
  · rfl

theorem take_absent {s : State K V} {k : K} (hk : ¬ Held s k) : LrfuBTree.take s k = .ok (none, s) := by
  have : s.map.find? (fun e => decide (e.1 = k)) = none := by
    rw [find?_eq_none]
    intro x hx
    simp only [decide_eq_true_eq]
    rintro rfl
    exact hk (mem_map_of_mem hx)
  simp only [LrfuBTree.take, this]

theorem take_now {s s' : State K V} {k : K} {o : Option (K × LrfuCell32 V)} (ht : LrfuBTree.take s k = .ok (o, s')) :
    s.now ≤ s'.now := by
  unfold LrfuBTree.take at ht
  split at ht
  · cases ht; exact le_rfl
  · unfold Res.sub at ht
    split at ht
    · simp only [Res.ok_bind] at ht
      split at ht
      · cases ht
      · cases ht; exact (search_now _ _ _).1
    · cases ht

/-- A take that returns is one of an absent key. -/
theorem take_ok {e : F32} (he : Good e) {z : Nat} {s s' : State K V} (h : Core e z s) {k : K} {o : Option (K × LrfuCell32 V)}
    (ht : LrfuBTree.take s k = .ok (o, s')) (hn : s'.now ≤ z + 2 ^ 24) : ¬ Held s k ∧ o = none ∧ s' = s := by
  by_cases hk : Held s k
  · exfalso
    obtain ⟨⟨k', c⟩, hm, rfl⟩ := mem_map.1 hk
    simp only [LrfuBTree.take, find_held h.nodup hm, setRemove] at ht
    unfold Res.sub at ht
    split at ht
    · simp only [Res.ok_bind] at ht
      by_cases hs : (search (c, k') s.now s.set).1 = true
      · have hx : (search (c, k') s.now s.set).2.2 ≤ s'.now := by
          rw [if_pos hs] at ht
          split at ht
          · cases ht
          · cases ht; exact le_rfl
        rw [not_found he h hm (hx.trans hn)] at hs
        cases hs
      · rw [if_neg hs, if_pos] at ht
        · cases ht
        · simp only [any_eq_true, decide_eq_true_eq]
          exact ⟨_, h.mem_set.2 hm, rfl⟩
    · cases ht
  · rw [take_absent hk] at ht
    cases ht
    exact ⟨hk, rfl, rfl⟩

theorem takes_now (ks : List K) : ∀ {s s' : State K V} {out}, defaultTakeMultiple LrfuBTree.take s ks = .ok (out, s') →
    s.now ≤ s'.now := by
  induction ks with
  | nil => intro s s' out h; cases h; exact le_rfl
  | cons k ks ih =>
    intro s s' out h
    simp only [defaultTakeMultiple] at h
    cases ht : LrfuBTree.take s k with
    | panic => rw [ht] at h; cases h
    | ok r =>
      obtain ⟨o, s1⟩ := r
      rw [ht] at h
      simp only [Res.ok_bind] at h
      cases hm : defaultTakeMultiple LrfuBTree.take s1 ks with
      | panic => rw [hm] at h; cases h
      | ok r =>
        rw [hm] at h; cases h
        exact (take_now ht).trans (ih hm)

/-- Takes that return are of absent keys. -/
theorem takes_ok {e : F32} (he : Good e) {z : Nat} (ks : List K) : ∀ {s s' : State K V} {out}, Core e z s →
    defaultTakeMultiple LrfuBTree.take s ks = .ok (out, s') → s'.now ≤ z + 2 ^ 24 →
    (∀ k ∈ ks, ¬ Held s k) ∧ out = [] ∧ s' = s := by
  induction ks with
  | nil => intro s s' out _ h _; cases h; exact ⟨by simp, rfl, rfl⟩
  | cons k ks ih =>
    intro s s' out hc h hn
    simp only [defaultTakeMultiple] at h
    cases ht : LrfuBTree.take s k with
    | panic => rw [ht] at h; cases h
    | ok r =>
      obtain ⟨o, s1⟩ := r
      rw [ht] at h
      simp only [Res.ok_bind] at h
      cases hm : defaultTakeMultiple LrfuBTree.take s1 ks with
      | panic => rw [hm] at h; cases h
      | ok r =>
        rw [hm] at h; cases h
        obtain ⟨h1, rfl, rfl⟩ := take_ok he hc ht ((takes_now ks hm).trans hn)
        obtain ⟨h2, h3, h4⟩ := ih hc hm hn
        refine ⟨?_, by simp [h3], h4⟩
        intro k' hk'
        rcases mem_cons.1 hk' with rfl | hk'
        · exact h1
        · exact h2 k' hk'

theorem takes_absent (ks : List K) {s : State K V} (h : ∀ k ∈ ks, ¬ Held s k) :
    defaultTakeMultiple LrfuBTree.take s ks = .ok ([], s) := by
  induction ks with
  | nil => rfl
  | cons k ks ih =>
    simp only [defaultTakeMultiple, take_absent (h k (by simp)), Res.ok_bind, ih (fun k' hk' => h k' (by simp [hk']))]
    rfl

/-- Taking keys of which one is held panics. -/
theorem takes_held {e : F32} (he : Good e) {z : Nat} {s : State K V} (h : Core e z s)
    (hn : s.now + 2 * s.map.length ≤ z + 2 ^ 24) : ∀ ks : List K, (∃ k ∈ ks, Held s k) →
    defaultTakeMultiple LrfuBTree.take s ks = .panic
  | [], hk => by simp at hk
  | k :: ks, hk => by
    by_cases hh : Held s k
    · simp only [defaultTakeMultiple, take_held he h hh hn]; rfl
    · have : ∃ k ∈ ks, Held s k := by
        obtain ⟨k', h1, h2⟩ := hk
        rcases mem_cons.1 h1 with rfl | h1
        · exact absurd h2 hh
        · exact ⟨k', h1, h2⟩
      simp only [defaultTakeMultiple, take_absent hh, Res.ok_bind, takes_held he h hn ks this]
      rfl

/-! ## `pop` -/

/-- What is split off is removed from the map. -/
theorem removeAll_spec (l : List (LrfuCell32 V × K)) : ∀ (m r : List (K × LrfuCell32 V)), (m.map Prod.fst).Nodup →
    m.Perm (l.map Prod.swap ++ r) → ∃ m', LrfuBTree.removeAll m l = .ok (l.map Prod.swap, m') ∧ m'.Perm r := by
  induction l with
  | nil => intro m r _ h; exact ⟨m, rfl, by simpa using h⟩
  | cons x l ih =>
    intro m r hn h
    obtain ⟨c, k⟩ := x
    simp only [map_cons, Prod.swap, cons_append] at h
    have hm : (k, c) ∈ m := h.mem_iff.2 (by simp)
    obtain ⟨m', h1, h2⟩ := ih (m.filter fun e => decide (e.1 ≠ k)) r
      (hn.sublist ((filter_sublist).map _)) (BTree.filter_ne_perm h hn)
    refine ⟨m', ?_, h2⟩
    simp only [LrfuBTree.removeAll, find_held hn hm, Res.unwrap, Res.ok_bind, h1]
    rfl

theorem total_one {E : Type} (l : List E) : total (fun _ => 1) l = l.length := by
  induction l with
  | nil => rfl
  | cons x l ih => simp only [total_cons, ih, length_cons]; omega

omit [LinearOrder K] in
theorem take_drop_swap (l : List (LrfuCell32 V × K)) (i : Nat) :
    (l.map Prod.swap).Perm ((l.drop i).map Prod.swap ++ (l.take i).map Prod.swap) := by
  conv_lhs => rw [← take_append_drop i l, map_append]
  exact perm_append_comm

/-- What `pop` gives up: everything, or the oldest elements, `m` of them or one more. -/
theorem pop_core {e : F32} (he : Good e) {z : Nat} {s : State K V} (h : Core e z s) (ht : s.map.length ≤ s.totalSize) (n : Nat) :
    ∃ out s', LrfuBTree.pop s n = .ok (out, s') ∧ s.now ≤ s'.now ∧ s'.now ≤ s.now + 2 * s.map.length ∧
      (s'.now ≤ z + 2 ^ 24 → Core e z s' ∧ s'.map.length ≤ s'.totalSize ∧ (out ++ s'.map).Perm s.map ∧
      s'.capacity = s.capacity ∧ (∀ x ∈ out, ∀ y ∈ s'.map, age x < age y) ∧
      (s'.map = [] ∨ ∃ m, max n 1 ≤ m ∧ m ≤ max n 1 ∧ m ≤ out.length ∧ out.length ≤ m + 1 ∧ s.totalSize = s'.totalSize + m)) := by
  unfold LrfuBTree.pop
  by_cases h0 : s.map.isEmpty
  · rw [if_pos h0]
    have : s.map = [] := by simpa using h0
    exact ⟨[], s, rfl, le_rfl, by omega, fun _ => ⟨h, ht, by simp, rfl, by simp, Or.inl this⟩⟩
  rw [if_neg h0]
  by_cases h1 : s.totalSize ≤ n
  · rw [if_pos h1]
    exact ⟨_, _, rfl, le_rfl, by simp, fun _ => ⟨⟨by simp, by simp, (fun x hx => by cases hx),
      by simp, h.start⟩, by simp, by simp, rfl, by simp, Or.inl rfl⟩⟩
  rw [if_neg h1]
  have hne : s.set ≠ [] := by
    intro hs
    have := h.length
    rw [hs] at this
    simp at h0
    cases hm : s.map <;> simp_all
  obtain ⟨p, q, e1, e2, e3, e4, e5⟩ := findCut_spec (fun _ : LrfuCell32 V × K => 1) n s.set hne
  rw [total_one] at e3 e4
  obtain ⟨x, q', rfl⟩ := exists_cons_of_ne_nil e2
  have hlen := h.length
  have hl : s.set.length = p.length + (q'.length + 1) := by rw [e1]; simp
  simp only [e3, head?_cons, Res.unwrap, Res.ok_bind, length_cons]
  have hsub : Res.sub s.totalSize (q'.length + 1) = .ok (s.totalSize - (q'.length + 1)) := by
    unfold Res.sub; rw [if_pos (by omega)]
  rw [hsub]
  simp only [Res.ok_bind]
  have hx : s.set[p.length]? = some x := by rw [e1]; simp
  have hnow := search_now x s.set s.now
  have hnear := search_near he h hx
  generalize hi : (search x s.now s.set).2.1 = i at hnear
  obtain ⟨m', r1, r2⟩ := removeAll_spec (s.set.drop i) s.map ((s.set.take i).map Prod.swap) h.nodup
    (h.agree.symm.trans (take_drop_swap _ _))
  simp only [r1, Res.ok_bind]
  have hperm : ((s.set.drop i).map Prod.swap ++ m').Perm s.map :=
    (r2.append_left _).trans ((take_drop_swap _ _).symm.trans h.agree)
  have hsl : ∀ y ∈ m', y ∈ s.map := fun y hy => hperm.mem_iff.1 (by simp [hy])
  refine ⟨_, _, rfl, hnow.1, ?_, fun hn => ?_⟩
  · exact le_trans hnow.2.1 (by omega)
  obtain ⟨n1, n2⟩ := hnear hn
  have hml : m'.length = i := by
    rw [r2.length_eq, length_map, length_take]; omega
  refine ⟨⟨r2.symm, ?_, ?_, h.sorted.sublist (take_sublist _ _), h.start.trans hnow.1⟩, ?_, hperm, rfl, ?_, ?_⟩
  · have := (hperm.map Prod.fst).nodup_iff.2 h.nodup
    rw [map_append] at this
    exact this.of_append_right
  · exact fun y hy => (h.fresh.mono hnow.1) y (hsl y hy)
  · simp only; omega
  · intro a ha b hb
    rw [r2.mem_iff] at hb
    obtain ⟨a', ha', rfl⟩ := mem_map.1 ha
    obtain ⟨b', hb', rfl⟩ := mem_map.1 hb
    have := h.sorted
    rw [← take_append_drop i s.set, pairwise_append] at this
    exact this.2.2 b' hb' a' ha'
  · by_cases hp : p = []
    · left
      subst hp
      apply eq_nil_of_length_eq_zero
      simp only [length_nil] at n1
      simp only; omega
    · right
      have h4 := e4.resolve_left hp
      have h5 := e5 x q' rfl
      rw [total_one] at h5
      refine ⟨q'.length + 1, by simp only [length_cons] at h4; omega, ?_, ?_, ?_, ?_⟩
      · rcases h5 with rfl | h5
        · simp
        · omega
      all_goals simp only [length_map, length_drop]
      all_goals omega

/-! ## `push` -/

theorem setInsert_now (now : Nat) (l : List (LrfuCell32 V × K)) (x : LrfuCell32 V × K) :
    now ≤ (LrfuBTree.setInsert now l x).2 ∧ (l ≠ [] → now + 2 ≤ (LrfuBTree.setInsert now l x).2) := by
  refine ⟨(search_now x l now).1, ?_⟩
  cases l with
  | nil => simp
  | cons y l =>
    intro _
    have := (search_now x l (now + 2)).1
    simp only [LrfuBTree.setInsert, search]
    generalize search x (now + 2) l = r at *
    obtain ⟨b, i, n⟩ := r
    cases cmpPair now x y <;> simp only at * <;> omega

/-- The newest cell goes first. -/
theorem setInsert_newest {e : F32} (he : Good e) {z now : Nat} {l : List (LrfuCell32 V × K)} {v : V} {k : K} {a : Nat}
    (hl : ∀ y ∈ l, ∃ w b, z ≤ b ∧ b < a ∧ y.1 = made e w b) (ha : a < now) (hz : z ≤ a)
    (hn : (LrfuBTree.setInsert now l (made e v a, k)).2 ≤ z + 2 ^ 24) :
    (LrfuBTree.setInsert now l (made e v a, k)).1 = (made e v a, k) :: l := by
  have hm := (setInsert_now now l (made e v a, k)).2
  cases l with
  | nil => rfl
  | cons y l =>
    replace hm := hm (by simp)
    obtain ⟨w, b, h1, h2, h3⟩ := hl y (by simp)
    have : cmpPair now (made e v a, k) y = .lt := by
      unfold cmpPair
      simp only
      rw [h3, cmp_made he v w (by omega) (by omega) (by omega) (by omega), compare_lt_iff_lt.2 (by omega)]
      rfl
    simp only [LrfuBTree.setInsert, search, this]
    simp

theorem mapInsert_new {m : List (K × LrfuCell32 V)} {x : K × LrfuCell32 V} (h : x.1 ∉ m.map Prod.fst) :
    (mapInsert m x).Perm (x :: m) := by
  unfold mapInsert
  rw [filter_eq_self.2]
  · exact perm_orderedInsert _ _ _
  · intro y hy
    simp only [decide_eq_true_eq]
    intro hc
    exact h (hc ▸ mem_map_of_mem hy)

theorem insert_now (l : List (K × LrfuCell32 V)) : ∀ s : State K V, s.now ≤ (insertUnchecked s l).now ∧
    (insertUnchecked s l).totalSize = s.totalSize ∧ (insertUnchecked s l).capacity = s.capacity := by
  induction l with
  | nil => intro s; exact ⟨le_rfl, rfl, rfl⟩
  | cons x l ih =>
    intro s
    obtain ⟨h1, h2, h3⟩ := ih { s with set := (LrfuBTree.setInsert s.now s.set (x.2, x.1)).1, map := mapInsert s.map (x.1, x.2), now := (LrfuBTree.setInsert s.now s.set (x.2, x.1)).2 }
    exact ⟨(setInsert_now _ _ _).1.trans h1, h2, h3⟩

/-- New cells, made one after the other since `lo`. -/
def Batch (e : F32) (lo hi : Nat) (l : List (K × LrfuCell32 V)) : Prop :=
  Fresh e lo hi l ∧ l.Pairwise (fun x y => age x < age y)

theorem insert_core {e : F32} (he : Good e) {z : Nat} (l : List (K × LrfuCell32 V)) : ∀ (s : State K V) (lo : Nat), Core e z s →
    Fresh e z lo s.map → z ≤ lo → Batch e lo s.now l → (l.map Prod.fst).Nodup → (∀ x ∈ l, ¬ Held s x.1) →
    (insertUnchecked s l).now ≤ z + 2 ^ 24 →
    Core e z (insertUnchecked s l) ∧ (insertUnchecked s l).map.Perm (l ++ s.map) := by
  induction l with
  | nil => intro s lo h _ _ _ _ _ _; exact ⟨h, by simp [insertUnchecked]⟩
  | cons x l ih =>
    intro s lo h hf hz hb hnd hh hn
    obtain ⟨k, c⟩ := x
    obtain ⟨hb1, hb2⟩ := hb
    obtain ⟨v, a, g0, g1, g2⟩ := hb1 (k, c) (by simp)
    simp only at g2
    subst g2
    simp only [map_cons, nodup_cons] at hnd
    have hk : ¬ Held s k := hh (k, made e v a) (by simp)
    set s1 : State K V := { s with set := (LrfuBTree.setInsert s.now s.set (made e v a, k)).1, map := mapInsert s.map (k, made e v a), now := (LrfuBTree.setInsert s.now s.set (made e v a, k)).2 } with hs1
    have hmono : s.now ≤ s1.now := (setInsert_now _ _ _).1
    replace hn : (insertUnchecked s1 l).now ≤ z + 2 ^ 24 := hn
    have hold : ∀ y ∈ s.set, ∃ w b, z ≤ b ∧ b < a ∧ y.1 = made e w b := by
      intro y hy
      obtain ⟨w, b, q0, q1, q2⟩ := hf (y.2, y.1) (h.mem_set.1 hy)
      exact ⟨w, b, q0, by omega, q2⟩
    have hset : s1.set = (made e v a, k) :: s.set :=
      setInsert_newest he hold (by omega) (by omega) ((insert_now l s1).1.trans hn)
    have hmap : s1.map.Perm ((k, made e v a) :: s.map) := mapInsert_new hk
    have hcore : Core e z s1 := by
      refine ⟨?_, ?_, ?_, ?_, h.start.trans hmono⟩
      · rw [hset]; exact (h.agree.cons _).trans hmap.symm
      · exact ((hmap.map Prod.fst).nodup_iff).2 (by simpa using ⟨by simpa [Held] using hk, h.nodup⟩)
      · intro y hy
        rcases mem_cons.1 (hmap.mem_iff.1 hy) with rfl | hy
        · exact ⟨v, a, by omega, by omega, rfl⟩
        · exact h.fresh.mono hmono y hy
      · rw [hset, pairwise_cons]
        refine ⟨fun y hy => ?_, h.sorted⟩
        obtain ⟨w, b, q0, q1, q2⟩ := hold y hy
        rw [q2]
        exact q1
    have hf1 : Fresh e z (a + 1) s1.map := by
      intro y hy
      rcases mem_cons.1 (hmap.mem_iff.1 hy) with rfl | hy
      · exact ⟨v, a, by omega, by omega, rfl⟩
      · exact hf.mono (by omega) y hy
    rw [pairwise_cons] at hb2
    obtain ⟨r1, r2⟩ := ih s1 (a + 1) hcore hf1 (by omega)
      ⟨fun y hy => by
        obtain ⟨w, b, q0, q1, q2⟩ := hb1 y (by simp [hy])
        have := hb2.1 y hy
        simp only [age, q2, made, LrfuStats32.new] at this
        exact ⟨w, b, by omega, by omega, q2⟩, hb2.2⟩ hnd.2
      (fun y hy hy2 => by
        unfold Held at hy2
        rw [(hmap.map Prod.fst).mem_iff, map_cons, mem_cons] at hy2
        rcases hy2 with hy2 | hy2
        · exact hnd.1 ((show y.1 = k from hy2) ▸ mem_map_of_mem hy)
        · exact hh y (by simp [hy]) hy2) hn
    exact ⟨r1, r2.trans ((hmap.append_left l).trans perm_middle)⟩

theorem pop_now {s s' : State K V} {n : Nat} {out} (h : LrfuBTree.pop s n = .ok (out, s')) : s.now ≤ s'.now := by
  unfold LrfuBTree.pop at h
  split at h
  · cases h; exact le_rfl
  split at h
  · cases h; exact le_rfl
  · rcases hfc : findCutAtSize (fun _ => 1) n s.set with ⟨c0, cs, o⟩
    rw [hfc] at h
    simp only at h
    cases h1 : Res.unwrap o with
    | panic => rw [h1] at h; cases h
    | ok x =>
      rw [h1] at h
      simp only [Res.ok_bind] at h
      cases h2 : Res.sub s.totalSize cs with
      | panic => rw [h2] at h; cases h
      | ok t =>
        rw [h2] at h
        simp only [Res.ok_bind] at h
        cases h3 : LrfuBTree.removeAll s.map (s.set.drop (search x s.now s.set).2.1) with
        | panic => rw [h3] at h; cases h
        | ok r => rw [h3] at h; cases h; exact (search_now _ _ _).1

omit [LinearOrder K] in
theorem flush_core {e : F32} {z : Nat} {s : State K V} (h : Core e z s) : Core e z (LrfuBTree.flush s).2 :=
  ⟨by simp [LrfuBTree.flush], by simp [LrfuBTree.flush], (fun x hx => by cases hx), by simp [LrfuBTree.flush], h.start⟩

omit [LinearOrder K] in
theorem Core.totalSize {e : F32} {z : Nat} {s : State K V} (h : Core e z s) (t : Nat) : Core e z { s with totalSize := t } :=
  ⟨h.agree, h.nodup, h.fresh, h.sorted, h.start⟩

/-- A push that returns. -/
theorem pushCells_spec {e : F32} (he : Good e) {z lo : Nat} {s s' : State K V} {l out : List (K × LrfuCell32 V)} (hi : Inv e z s)
    (hf : Fresh e z lo s.map) (hz : z ≤ lo) (hb : Batch e lo s.now l) (hnd : (l.map Prod.fst).Nodup)
    (h : pushCells s l = .ok (out, s')) (hn : s'.now ≤ z + 2 ^ 24) :
    Inv e z s' ∧ (out ++ s'.map).Perm (l ++ s.map) ∧ s'.capacity = s.capacity := by
  unfold pushCells at h
  simp only at h
  split at h
  · rename_i hc
    set s0 : State K V := (LrfuBTree.flush s).2 with hs0
    have h0 : Core e z s0 := flush_core hi.toCore
    have hins := insert_now l s0
    have hcore := insert_core he l s0 lo h0 (fun x hx => by cases hx) hz hb hnd
      (fun x _ hx => by cases hx)
    split at h
    · rename_i hlt
      cases hp : LrfuBTree.pop { insertUnchecked s0 l with totalSize := l.length } (l.length - (insertUnchecked s0 l).capacity) with
      | panic => rw [hp] at h; cases h
      | ok r =>
        obtain ⟨out', s2⟩ := r
        rw [hp] at h
        cases h
        have h3 := pop_now hp
        obtain ⟨c1, c2⟩ := hcore (h3.trans hn)
        have hlen : (insertUnchecked s0 l).map.length = l.length := by rw [c2.length_eq]; simp [hs0, LrfuBTree.flush]
        obtain ⟨o2, s3, p1, p2, p3, p4⟩ := pop_core he (c1.totalSize l.length) (by simpa using hlen.le) (l.length - (insertUnchecked s0 l).capacity)
        rw [p1] at hp
        cases hp
        obtain ⟨q1, q2, q3, q4, q5, q6⟩ := p4 hn
        have hql := q3.length_eq
        rw [length_append] at hql
        simp only at hql q4 q6
        refine ⟨⟨q1, q2, ?_⟩, ?_, q4.trans hins.2.2⟩
        · rw [q4]
          rcases q6 with q6 | ⟨m, m1, m2, m3, m4, m5⟩
          · simp [q6]
          · have hc2 : (insertUnchecked s0 l).capacity = s.capacity := hins.2.2
            replace hql : out'.length + s2.map.length = (insertUnchecked s0 l).map.length := hql
            show s2.map.length ≤ (insertUnchecked s0 l).capacity
            omega
        · have : (LrfuBTree.flush s).1 = s.map := rfl
          rw [this, append_assoc]
          exact (q3.append_left _).trans ((c2.append_left _).trans (by simpa [hs0, LrfuBTree.flush] using perm_append_comm))
    · rename_i hlt
      cases h
      obtain ⟨c1, c2⟩ := hcore hn
      have hlen : (insertUnchecked s0 l).map.length = l.length := by rw [c2.length_eq]; simp [hs0, LrfuBTree.flush]
      refine ⟨⟨c1.totalSize _, hlen.le, ?_⟩, ?_, hins.2.2⟩
      · simp only at hlt ⊢; omega
      · exact (c2.append_left _).trans (by simpa [hs0, LrfuBTree.flush] using perm_append_comm)
  · rename_i hc
    cases ht : defaultTakeMultiple LrfuBTree.take s (l.map Prod.fst) with
    | panic => rw [ht] at h; cases h
    | ok r =>
      obtain ⟨out1, s1⟩ := r
      rw [ht] at h
      simp only [Res.ok_bind] at h
      unfold Res.sub at h
      split at h
      swap
      · cases h
      rename_i hroom
      simp only [Res.ok_bind] at h
      have key : ∀ (out2 : List (K × LrfuCell32 V)) (s2 : State K V), s1.now ≤ s2.now → out = out1 ++ out2 →
          s' = { insertUnchecked s2 l with totalSize := (insertUnchecked s2 l).totalSize + l.length } →
          (s1 = s → s2.now ≤ z + 2 ^ 24 → Core e z s2 ∧ s2.map.length ≤ s2.totalSize ∧ s2.map.length + l.length ≤ s2.capacity ∧
            (out2 ++ s2.map).Perm s.map ∧ s2.capacity = s.capacity) →
          Inv e z s' ∧ (out ++ s'.map).Perm (l ++ s.map) ∧ s'.capacity = s.capacity := by
        rintro out2 s2 hm rfl rfl hX
        replace hn : (insertUnchecked s2 l).now ≤ z + 2 ^ 24 := hn
        have hins := insert_now l s2
        obtain ⟨g1, rfl, rfl⟩ := takes_ok he (l.map Prod.fst) hi.toCore ht (by omega)
        obtain ⟨c1, c2, c3, c4, c5⟩ := hX rfl (by omega)
        have hsub : ∀ x ∈ s2.map, x ∈ s1.map := fun x hx => c4.mem_iff.1 (by simp [hx])
        obtain ⟨d1, d2⟩ := insert_core he l s2 lo c1 (fun x hx => hf x (hsub x hx)) hz
          ⟨hb.1.mono hm, hb.2⟩ hnd (fun x hx hh => by
            obtain ⟨y, hy, hy2⟩ := mem_map.1 hh
            exact g1 x.1 (mem_map_of_mem hx) (mem_map.2 ⟨y, hsub y hy, hy2⟩)) hn
        have hlen := d2.length_eq
        rw [length_append] at hlen
        refine ⟨⟨d1.totalSize _, ?_, ?_⟩, ?_, hins.2.2.trans c5⟩
        · simp only; rw [hins.2.1]; omega
        · simp only; rw [hins.2.2]; omega
        · simp only [nil_append]
          refine (d2.append_left out2).trans ?_
          rw [← append_assoc]
          exact (perm_append_comm.append_right _).trans (by rw [append_assoc]; exact c4.append_left l)
      split at h
      · rename_i hlt
        cases hp : LrfuBTree.pop s1 (l.length - (s1.capacity - s1.totalSize)) with
        | panic => rw [hp] at h; cases h
        | ok r =>
          obtain ⟨out2, s2⟩ := r
          rw [hp] at h
          cases h
          refine key out2 s2 (pop_now hp) rfl rfl ?_
          rintro rfl hs2
          obtain ⟨o2, s3, p1, p2, p3, p4⟩ := pop_core he hi.toCore hi.total (l.length - (s1.capacity - s1.totalSize))
          rw [p1] at hp
          cases hp
          obtain ⟨q1, q2, q3, q4, q5, q6⟩ := p4 hs2
          refine ⟨q1, q2, ?_, q3, q4⟩
          have hql := q3.length_eq
          rw [length_append] at hql
          have := hi.total
          rw [q4]
          rcases q6 with q6 | ⟨m, m1, m2, m3, m4, m5⟩
          · simp [q6]; omega
          · omega
      · rename_i hlt
        cases h
        refine key [] s1 le_rfl rfl rfl ?_
        rintro rfl hs2
        refine ⟨hi.toCore, hi.total, ?_, by simp, rfl⟩
        have := hi.total
        omega

theorem pushCells_now {s s' : State K V} {l out : List (K × LrfuCell32 V)} (h : pushCells s l = .ok (out, s')) :
    s.now ≤ s'.now := by
  unfold pushCells at h
  simp only at h
  split at h
  · have hins := insert_now l (LrfuBTree.flush s).2
    split at h
    · cases hp : LrfuBTree.pop { insertUnchecked (LrfuBTree.flush s).2 l with totalSize := l.length } (l.length - (insertUnchecked (LrfuBTree.flush s).2 l).capacity) with
      | panic => rw [hp] at h; cases h
      | ok r => rw [hp] at h; cases h; exact hins.1.trans (show _ from (pop_now (s := { insertUnchecked (LrfuBTree.flush s).2 l with totalSize := l.length }) hp))
    · cases h; exact hins.1
  · cases ht : defaultTakeMultiple LrfuBTree.take s (l.map Prod.fst) with
    | panic => rw [ht] at h; cases h
    | ok r =>
      obtain ⟨out1, s1⟩ := r
      rw [ht] at h
      simp only [Res.ok_bind] at h
      have h1 := takes_now _ ht
      unfold Res.sub at h
      split at h
      swap
      · cases h
      simp only [Res.ok_bind] at h
      split at h
      · cases hp : LrfuBTree.pop s1 (l.length - (s1.capacity - s1.totalSize)) with
        | panic => rw [hp] at h; cases h
        | ok r => rw [hp] at h; cases h; exact h1.trans ((pop_now hp).trans (insert_now l _).1)
      · cases h; exact h1.trans (insert_now l _).1

theorem good_pos {e : F32} (he : Good e) : e.nonPos = false := by
  rcases he with rfl | ⟨q, hq, rfl⟩
  · rfl
  · simpa [F32.nonPos] using hq

omit [LinearOrder K] in
/-- `wrap` makes cells one after the other. -/
theorem wrapAll_spec {e : F32} (he : Good e) (l : List (K × V)) : ∀ now, ∃ cells, LrfuBTree.wrapAll e now l = .ok (cells, now + l.length) ∧
    cells.map (fun x => (x.1, x.2.value)) = l ∧ Batch e now (now + l.length) cells := by
  induction l with
  | nil => intro now; exact ⟨[], rfl, rfl, (fun x hx => by cases hx), Pairwise.nil⟩
  | cons x l ih =>
    intro now
    obtain ⟨k, v⟩ := x
    obtain ⟨cells, h1, h2, h3, h4⟩ := ih (now + 1)
    refine ⟨(k, made e v now) :: cells, ?_, by simp [made, h2], ?_, ?_⟩
    · simp only [LrfuBTree.wrapAll, LrfuCell32.new, good_pos he, Bool.false_eq_true, if_false, Res.ok_bind, h1, length_cons]
      rw [show now + 1 + l.length = now + (l.length + 1) by omega]
      rfl
    · intro y hy
      rcases mem_cons.1 hy with rfl | hy
      · exact ⟨v, now, le_rfl, by simp, rfl⟩
      · obtain ⟨w, b, q1, q2, q3⟩ := h3 y hy
        exact ⟨w, b, by omega, by simp only [length_cons]; omega, q3⟩
    · rw [pairwise_cons]
      refine ⟨fun y hy => ?_, h4⟩
      obtain ⟨w, b, q1, q2, q3⟩ := h3 y hy
      simp only [age, q3, made, LrfuStats32.new]
      omega

/-! ## Histories -/

/-- What is held: what `flush` would hand back. -/
def contents (s : State K V) : List (K × V) := (LrfuBTree.flush s).1.map fun x => (x.1, x.2.value)

/-- What is handed in. -/
def given : LrfuBTree.Call K V → List (K × V)
  | .push l => l
  | _ => []

omit [LinearOrder K] in
theorem contents_eq (s : State K V) : contents s = s.map.map fun x => (x.1, x.2.value) := rfl

omit [LinearOrder K] in
theorem values_perm {a b : List (K × LrfuCell32 V)} (h : a.Perm b) :
    (a.map fun x => (x.1, x.2.value)).Perm (b.map fun x => (x.1, x.2.value)) := h.map _

theorem exec_now {e : F32} (he : Good e) {s s' : State K V} {c : LrfuBTree.Call K V} {out} (h : LrfuBTree.exec e s c = .ok (out, s')) :
    s.now ≤ s'.now := by
  cases c with
  | push l =>
    obtain ⟨cells, h1, h2, h3⟩ := wrapAll_spec he l s.now
    simp only [LrfuBTree.exec, LrfuBTree.push, h1, Res.ok_bind] at h
    cases hp : pushCells { s with now := s.now + l.length } cells with
    | panic => rw [hp] at h; cases h
    | ok r =>
      rw [hp] at h; cases h
      have := pushCells_now hp
      simp only at this
      exact le_trans (by omega) this
  | pop n =>
    simp only [LrfuBTree.exec] at h
    cases hp : LrfuBTree.pop s n with
    | panic => rw [hp] at h; cases h
    | ok r => rw [hp] at h; cases h; exact pop_now hp
  | take k =>
    simp only [LrfuBTree.exec] at h
    cases hp : LrfuBTree.take s k with
    | panic => rw [hp] at h; cases h
    | ok r => rw [hp] at h; cases h; exact take_now hp
  | get k =>
    simp only [LrfuBTree.exec] at h
    cases hp : LrfuBTree.take s k with
    | panic => rw [hp] at h; cases h
    | ok r =>
      obtain ⟨o, s1⟩ := r
      rw [hp] at h
      simp only [Res.ok_bind] at h
      have h1 := take_now hp
      cases o with
      | none => cases h; exact h1
      | some x =>
        simp only at h
        cases hq : pushCells s1 [x] with
        | panic => rw [hq] at h; cases h
        | ok r =>
          obtain ⟨o2, s2⟩ := r
          rw [hq] at h
          simp only [Res.ok_bind] at h
          split at h
          · cases h; exact h1.trans (pushCells_now hq)
          · cases h
  | flush => cases h; exact le_rfl

theorem execs_now {e : F32} (he : Good e) (cs : List (LrfuBTree.Call K V)) : ∀ {s s' : State K V} {out},
    LrfuBTree.execs e s cs = .ok (out, s') → s.now ≤ s'.now := by
  induction cs with
  | nil => intro s s' out h; cases h; exact le_rfl
  | cons c cs ih =>
    intro s s' out h
    simp only [LrfuBTree.execs] at h
    cases hp : LrfuBTree.exec e s c with
    | panic => rw [hp] at h; cases h
    | ok r =>
      obtain ⟨o, s1⟩ := r
      rw [hp] at h
      simp only [Res.ok_bind] at h
      cases hq : LrfuBTree.execs e s1 cs with
      | panic => rw [hq] at h; cases h
      | ok r => rw [hq] at h; cases h; exact (exec_now he hp).trans (ih hq)

omit [LinearOrder K] in
theorem Inv.later {e : F32} {z : Nat} {s : State K V} (h : Inv e z s) {t : Nat} (ht : s.now ≤ t) : Inv e z { s with now := t } :=
  ⟨⟨h.agree, h.nodup, h.fresh.mono ht, h.sorted, h.start.trans ht⟩, h.total, h.cap⟩

theorem exec_inv {e : F32} (he : Good e) {z : Nat} {s s' : State K V} {c : LrfuBTree.Call K V} {out} (hi : Inv e z s) (hd : Distinct c)
    (h : LrfuBTree.exec e s c = .ok (out, s')) (hn : s'.now ≤ z + 2 ^ 24) :
    Inv e z s' ∧ s'.capacity = s.capacity ∧ (out ++ contents s').Perm (given c ++ contents s) := by
  cases c with
  | push l =>
    obtain ⟨cells, h1, h2, h3⟩ := wrapAll_spec he l s.now
    simp only [LrfuBTree.exec, LrfuBTree.push, h1, Res.ok_bind] at h
    cases hp : pushCells { s with now := s.now + l.length } cells with
    | panic => rw [hp] at h; cases h
    | ok r =>
      obtain ⟨o, s1⟩ := r
      rw [hp] at h
      cases h
      have hk : (cells.map Prod.fst).Nodup := by
        have : cells.map Prod.fst = l.map Prod.fst := by
          rw [← h2, map_map]; rfl
        rw [this]; exact hd
      obtain ⟨q1, q2, q3⟩ := pushCells_spec he (hi.later (t := s.now + l.length) (by omega)) hi.fresh hi.start h3 hk hp hn
      refine ⟨q1, q3, ?_⟩
      have := values_perm q2
      rw [map_append, map_append, h2] at this
      exact this
  | pop n =>
    simp only [LrfuBTree.exec] at h
    cases hp : LrfuBTree.pop s n with
    | panic => rw [hp] at h; cases h
    | ok r =>
      obtain ⟨o, s1⟩ := r
      rw [hp] at h
      cases h
      obtain ⟨o2, s3, p1, p2, p3, p4⟩ := pop_core he hi.toCore hi.total n
      rw [p1] at hp
      cases hp
      obtain ⟨q1, q2, q3, q4, q5, q6⟩ := p4 hn
      have hql := q3.length_eq
      rw [length_append] at hql
      have := hi.cap
      refine ⟨⟨q1, q2, by rw [q4]; show s1.map.length ≤ _; omega⟩, q4, ?_⟩
      have := values_perm q3
      rw [map_append] at this
      exact this
  | take k =>
    simp only [LrfuBTree.exec] at h
    cases hp : LrfuBTree.take s k with
    | panic => rw [hp] at h; cases h
    | ok r =>
      obtain ⟨o, s1⟩ := r
      rw [hp] at h
      cases h
      obtain ⟨_, rfl, rfl⟩ := take_ok he hi.toCore hp hn
      exact ⟨hi, rfl, by simp [given]⟩
  | get k =>
    simp only [LrfuBTree.exec] at h
    cases hp : LrfuBTree.take s k with
    | panic => rw [hp] at h; cases h
    | ok r =>
      obtain ⟨o, s1⟩ := r
      rw [hp] at h
      simp only [Res.ok_bind] at h
      cases o with
      | none =>
        cases h
        obtain ⟨_, _, rfl⟩ := take_ok he hi.toCore hp hn
        exact ⟨hi, rfl, by simp [given]⟩
      | some x =>
        exfalso
        simp only at h
        cases hq : pushCells s1 [x] with
        | panic => rw [hq] at h; cases h
        | ok r =>
          obtain ⟨o2, s2⟩ := r
          rw [hq] at h
          simp only [Res.ok_bind] at h
          split at h
          · cases h
            obtain ⟨_, h2, _⟩ := take_ok he hi.toCore hp ((pushCells_now hq).trans hn)
            cases h2
          · cases h
  | flush =>
    cases h
    refine ⟨⟨flush_core hi.toCore, by simp [LrfuBTree.flush], by simp [LrfuBTree.flush]⟩, rfl, ?_⟩
    simp [given, contents, LrfuBTree.flush]

theorem execs_inv {e : F32} (he : Good e) {z : Nat} (cs : List (LrfuBTree.Call K V)) : ∀ {s s' : State K V} {out}, Inv e z s →
    (∀ c ∈ cs, Distinct c) → LrfuBTree.execs e s cs = .ok (out, s') → s'.now ≤ z + 2 ^ 24 →
    Inv e z s' ∧ s'.capacity = s.capacity ∧ (out ++ contents s').Perm (cs.flatMap given ++ contents s) := by
  induction cs with
  | nil => intro s s' out hi _ h _; cases h; exact ⟨hi, rfl, by simp⟩
  | cons c cs ih =>
    intro s s' out hi hd h hn
    simp only [LrfuBTree.execs] at h
    cases hp : LrfuBTree.exec e s c with
    | panic => rw [hp] at h; cases h
    | ok r =>
      obtain ⟨o, s1⟩ := r
      rw [hp] at h
      simp only [Res.ok_bind] at h
      cases hq : LrfuBTree.execs e s1 cs with
      | panic => rw [hq] at h; cases h
      | ok r =>
        obtain ⟨o2, s2⟩ := r
        rw [hq] at h
        cases h
        obtain ⟨a1, a2, a3⟩ := exec_inv he hi (hd c (by simp)) hp ((execs_now he cs hq).trans hn)
        obtain ⟨b1, b2, b3⟩ := ih a1 (fun c' hc' => hd c' (by simp [hc'])) hq hn
        refine ⟨b1, b2.trans a2, ?_⟩
        rw [flatMap_cons, append_assoc]
        refine (b3.append_left o).trans ?_
        rw [← append_assoc]
        refine (perm_append_comm.append_right _).trans ?_
        rw [append_assoc]
        refine (a3.append_left _).trans ?_
        rw [← append_assoc]
        exact perm_append_comm.append_right _

omit [LinearOrder K] in
theorem new_inv (e : F32) (n z : Nat) : Inv e z (LrfuBTree.new n z : State K V) :=
  ⟨⟨by simp [LrfuBTree.new], by simp [LrfuBTree.new], (fun x hx => by cases hx), by simp [LrfuBTree.new], le_rfl⟩,
    by simp [LrfuBTree.new], by simp [LrfuBTree.new]⟩

/-- `s` is reached from a new container of capacity `n`, made at reading `z` of the clock, by calls that returned, and at
most 2^24 readings. -/
def Reached (e : F32) (n z : Nat) (s : State K V) : Prop := ∃ cs out, (∀ c ∈ cs, Distinct c) ∧
  LrfuBTree.execs e (LrfuBTree.new n z) cs = .ok (out, s) ∧ s.now ≤ z + 2 ^ 24

theorem Reached.inv {e : F32} (he : Good e) {n z : Nat} {s : State K V} (h : Reached e n z s) : Inv e z s ∧ s.capacity = n := by
  obtain ⟨cs, out, h1, h2, h3⟩ := h
  obtain ⟨a, b, _⟩ := execs_inv he cs (new_inv e n z) h1 h2 h3
  exact ⟨a, b⟩

/-- **C105 (proved part, safety).** After any calls that returned: nothing is lost or made up, no key is held twice, no more is
held than `size()` tells, nor more than the capacity, and `contains` is exact. -/
theorem C105_rest_partial {e : F32} (he : Good e) {n z : Nat} {cs : List (LrfuBTree.Call K V)} (hd : ∀ c ∈ cs, Distinct c)
    {out : List (K × V)} {s : State K V} (h : LrfuBTree.execs e (LrfuBTree.new n z) cs = .ok (out, s)) (hn : s.now ≤ z + 2 ^ 24) :
    (out ++ contents s).Perm (cs.flatMap given) ∧ ((contents s).map Prod.fst).Nodup ∧
      (contents s).length ≤ s.totalSize ∧ (contents s).length ≤ n ∧
      ∀ k, LrfuBTree.contains s k = true ↔ k ∈ (contents s).map Prod.fst := by
  obtain ⟨a, b, c⟩ := execs_inv he cs (new_inv e n z) hd h hn
  have hk : (contents s).map Prod.fst = s.map.map Prod.fst := by rw [contents_eq, map_map]; rfl
  refine ⟨by simpa [contents, LrfuBTree.new, LrfuBTree.flush] using c, hk ▸ a.nodup, by simpa [contents_eq] using a.total, ?_, ?_⟩
  · have := a.cap
    rw [b] at this
    simpa [contents_eq, LrfuBTree.new] using this
  · intro k
    rw [hk]
    simp [LrfuBTree.contains]

/-- **C105 (lookups).** Taking, or accessing, an element that is held panics, and so does pushing its key again, in a batch
smaller than the capacity. -/
theorem C105_take_panics {e : F32} (he : Good e) {n z : Nat} {s : State K V} (h : Reached e n z s) {k : K}
    (hk : k ∈ (contents s).map Prod.fst) (hn : s.now + 2 * (contents s).length ≤ z + 2 ^ 24) :
    LrfuBTree.exec e s (.take k) = .panic ∧ LrfuBTree.exec e s (.get k) = .panic ∧
      ∀ l : List (K × V), k ∈ l.map Prod.fst → l.length < n → s.now + l.length + 2 * (contents s).length ≤ z + 2 ^ 24 →
        LrfuBTree.exec e s (.push l) = .panic := by
  obtain ⟨hi, hc⟩ := h.inv he
  have hh : Held s k := by rw [contents_eq, map_map] at hk; exact hk
  have hl : (contents s).length = s.map.length := by simp [contents_eq]
  rw [hl] at hn ⊢
  have ht := take_held he hi.toCore hh hn
  refine ⟨by simp only [LrfuBTree.exec, ht]; rfl, by simp only [LrfuBTree.exec, ht]; rfl, fun l hkl hln hnow => ?_⟩
  obtain ⟨cells, h1, h2, h3⟩ := wrapAll_spec he l s.now
  have hkeys : cells.map Prod.fst = l.map Prod.fst := by rw [← h2, map_map]; rfl
  have hlen : cells.length = l.length := by rw [← h2, length_map]
  have := takes_held he (hi.later (t := s.now + l.length) (by omega)).toCore (by simpa using hnow) (cells.map Prod.fst)
    ⟨k, hkeys ▸ hkl, hh⟩
  simp only [LrfuBTree.exec, LrfuBTree.push, h1, Res.ok_bind, pushCells]
  rw [if_neg (by rw [hlen, hc]; omega), this]
  rfl

/-- **C105 (pop).** `pop` does not panic; it evicts the elements pushed first: all of them, or as many as asked (one if none
is), or one more than that, which `size()` does not tell. -/
theorem C105_pop {e : F32} (he : Good e) {n z : Nat} {s : State K V} (h : Reached e n z s)
    (hn : s.now + 2 * (contents s).length ≤ z + 2 ^ 24) (m : Nat) :
    ∃ out s', LrfuBTree.pop s m = .ok (out, s') ∧ (out ++ s'.map).Perm s.map ∧
      (∀ x ∈ out, ∀ y ∈ s'.map, x.2.stats.last < y.2.stats.last) ∧
      (s'.map = [] ∨ s'.totalSize = s.totalSize - max m 1 ∧ (out.length = max m 1 ∨ out.length = max m 1 + 1)) := by
  obtain ⟨hi, hc⟩ := h.inv he
  have hl : (contents s).length = s.map.length := by simp [contents_eq]
  rw [hl] at hn
  obtain ⟨out, s', p1, p2, p3, p4⟩ := pop_core he hi.toCore hi.total m
  obtain ⟨q1, q2, q3, q4, q5, q6⟩ := p4 (p3.trans hn)
  refine ⟨out, s', p1, q3, q5, q6.imp id ?_⟩
  rintro ⟨r, m1, m2, m3, m4, m5⟩
  exact ⟨by omega, by omega⟩

/-! ## Pushes that return -/

/-- **C105 (flush).** `flush`, and `pop` of at least `size()`, hand back all that is held; nothing is held any more, and `size()`
is right again. -/
theorem C105_flush {e : F32} (he : Good e) {n z : Nat} {s : State K V} (h : Reached e n z s) :
    ∃ s' : State K V, LrfuBTree.exec e s .flush = .ok (contents s, s') ∧ s'.totalSize = 0 ∧ contents s' = [] ∧ s'.capacity = n ∧
      ∀ m, contents s ≠ [] → s.totalSize ≤ m → LrfuBTree.exec e s (.pop m) = .ok (contents s, s') := by
  refine ⟨(LrfuBTree.flush s).2, rfl, rfl, rfl, (h.inv he).2, fun m hm hs => ?_⟩
  have : s.map.isEmpty = false := by
    rw [contents_eq] at hm
    cases hx : s.map with
    | nil => rw [hx] at hm; exact absurd rfl hm
    | cons a l => rfl
  simp only [LrfuBTree.exec, LrfuBTree.pop, this, Bool.false_eq_true, if_false, if_pos hs]
  rfl

/-- New cells are compared once each. -/
theorem insert_bound {e : F32} (he : Good e) {z : Nat} (l : List (K × LrfuCell32 V)) : ∀ (s : State K V) (lo : Nat),
    (∀ y ∈ s.set, ∃ w b, z ≤ b ∧ b < lo ∧ y.1 = made e w b) → z ≤ lo → Batch e lo s.now l → s.now + 2 * l.length ≤ z + 2 ^ 24 →
    (insertUnchecked s l).now ≤ s.now + 2 * l.length := by
  induction l with
  | nil => intro s lo _ _ _ _; simp [insertUnchecked]
  | cons x l ih =>
    intro s lo hs hz hb hn
    obtain ⟨k, c⟩ := x
    obtain ⟨hb1, hb2⟩ := hb
    obtain ⟨v, a, g0, g1, g2⟩ := hb1 (k, c) (by simp)
    simp only at g2
    subst g2
    simp only [length_cons] at hn ⊢
    rw [pairwise_cons] at hb2
    have hold : ∀ y ∈ s.set, ∃ w b, z ≤ b ∧ b < a ∧ y.1 = made e w b := fun y hy => by
      obtain ⟨w, b, q0, q1, q2⟩ := hs y hy
      exact ⟨w, b, q0, by omega, q2⟩
    have h2 : (LrfuBTree.setInsert s.now s.set (made e v a, k)).2 ≤ s.now + 2 := by
      cases hset : s.set with
      | nil => simp [LrfuBTree.setInsert, search]
      | cons y r =>
        obtain ⟨w, b, q0, q1, q2⟩ := hold y (by rw [hset]; simp)
        have : cmpPair s.now (made e v a, k) y = .lt := by
          unfold cmpPair
          simp only
          rw [q2, cmp_made he v w (by omega) (by omega) (by omega) (by omega), compare_lt_iff_lt.2 (by omega)]
          rfl
        simp only [LrfuBTree.setInsert, search, this]
        omega
    have hset := setInsert_newest (k := k) (v := v) he hold g1 (by omega) (by omega)
    have hm := (setInsert_now s.now s.set (made e v a, k)).1
    set s1 : State K V := { s with set := (LrfuBTree.setInsert s.now s.set (made e v a, k)).1, map := mapInsert s.map (k, made e v a), now := (LrfuBTree.setInsert s.now s.set (made e v a, k)).2 } with hs1
    have := ih s1 (a + 1) (fun y hy => by
        rw [show s1.set = (made e v a, k) :: s.set from hset] at hy
        rcases mem_cons.1 hy with rfl | hy
        · exact ⟨v, a, by omega, by omega, rfl⟩
        · obtain ⟨w, b, q0, q1, q2⟩ := hold y hy
          exact ⟨w, b, q0, by omega, q2⟩) (by omega)
      ⟨fun y hy => by
        obtain ⟨w, b, q0, q1, q2⟩ := hb1 y (by simp [hy])
        have := hb2.1 y hy
        simp only [age, q2, made, LrfuStats32.new] at this
        exact ⟨w, b, by omega, by show b < (LrfuBTree.setInsert s.now s.set (made e v a, k)).2; omega, q2⟩, hb2.2⟩
      (by show (LrfuBTree.setInsert s.now s.set (made e v a, k)).2 + _ ≤ _; omega)
    refine le_trans this ?_
    show (LrfuBTree.setInsert s.now s.set (made e v a, k)).2 + _ ≤ _
    omega

/-- **C105 (push).** A push of new keys returns as long as `size()` is within the capacity; so does a push of a batch of the
capacity or more, whatever the keys. -/
theorem C105_push {e : F32} (he : Good e) {n z : Nat} {s : State K V} (h : Reached e n z s) {l : List (K × V)}
    (hd : (l.map Prod.fst).Nodup)
    (hl : n ≤ l.length ∨ s.totalSize ≤ n ∧ ∀ k ∈ l.map Prod.fst, k ∉ (contents s).map Prod.fst)
    (hn : s.now + 5 * l.length + 2 * (contents s).length ≤ z + 2 ^ 24) :
    ∃ out s', LrfuBTree.exec e s (.push l) = .ok (out, s') ∧ s'.now ≤ z + 2 ^ 24 := by
  obtain ⟨hi, hc⟩ := h.inv he
  subst hc
  have hcl : (contents s).length = s.map.length := by simp [contents_eq]
  rw [hcl] at hn
  obtain ⟨cells, h1, h2, h3⟩ := wrapAll_spec he l s.now
  have hkeys : cells.map Prod.fst = l.map Prod.fst := by rw [← h2, map_map]; rfl
  have hlen : cells.length = l.length := by rw [← h2, length_map]
  have hi1 := hi.later (t := s.now + l.length) (by omega)
  suffices ∃ out s', pushCells { s with now := s.now + l.length } cells = .ok (out, s') ∧ s'.now ≤ z + 2 ^ 24 by
    obtain ⟨out, s', g1, g2⟩ := this
    exact ⟨_, s', by simp only [LrfuBTree.exec, LrfuBTree.push, h1, Res.ok_bind, g1]; rfl, g2⟩
  unfold pushCells
  simp only [hlen]
  by_cases hs : l.length ≥ s.capacity
  · rw [if_pos hs]
    set s0 : State K V := (LrfuBTree.flush { s with now := s.now + l.length }).2 with hs0
    have hcap : (insertUnchecked s0 cells).capacity = s.capacity := (insert_now cells s0).2.2
    have hs0n : s0.now = s.now + l.length := rfl
    have hb := insert_bound he cells s0 s.now (fun y hy => by cases hy) hi.start h3 (by rw [hs0n]; omega)
    obtain ⟨c1, c2⟩ := insert_core he cells s0 s.now (flush_core hi1.toCore) (fun x hx => by cases hx) hi.start h3
      (hkeys ▸ hd) (fun x _ hx => by cases hx) (hb.trans (by rw [hs0n]; omega))
    have hml : (insertUnchecked s0 cells).map.length = l.length := by rw [c2.length_eq]; simp [hs0, LrfuBTree.flush, hlen]
    simp only [hcap]
    split
    · obtain ⟨out, s', p1, p2, p3, p4⟩ := pop_core he (c1.totalSize l.length) (by simpa using hml.le) (l.length - s.capacity)
      refine ⟨(LrfuBTree.flush { s with now := s.now + l.length }).1 ++ out, s', ?_, p3.trans ?_⟩
      · rw [hcap] at p1; rw [p1]; rfl
      · show (insertUnchecked s0 cells).now + 2 * (insertUnchecked s0 cells).map.length ≤ _
        omega
    · exact ⟨_, _, rfl, hb.trans (by omega)⟩
  · rw [if_neg hs]
    obtain ⟨t1, t2⟩ := hl.resolve_left hs
    have habs : ∀ k ∈ cells.map Prod.fst, ¬ Held { s with now := s.now + l.length } k := by
      intro k hk hh
      rw [hkeys] at hk
      refine t2 k hk ?_
      rw [contents_eq, map_map]
      exact hh
    rw [takes_absent _ habs]
    simp only [Res.ok_bind]
    rw [show Res.sub s.capacity s.totalSize = .ok (s.capacity - s.totalSize) by unfold Res.sub; rw [if_pos t1]]
    simp only [Res.ok_bind]
    have key : ∀ s2 : State K V, s.now + l.length ≤ s2.now → s2.now ≤ s.now + l.length + 2 * s.map.length → Core e z s2 →
        (∀ x ∈ s2.map, x ∈ s.map) → (insertUnchecked s2 cells).now ≤ z + 2 ^ 24 := by
      intro s2 g1 g2 g3 g4
      refine (insert_bound he cells s2 s.now (fun y hy => ?_) hi.start ⟨h3.1.mono g1, h3.2⟩ (by omega)).trans (by omega)
      obtain ⟨w, b, q0, q1, q2⟩ := hi.fresh (y.2, y.1) (g4 _ (g3.mem_set.1 hy))
      exact ⟨w, b, q0, q1, q2⟩
    split
    · obtain ⟨out, s2, p1, p2, p3, p4⟩ := pop_core he hi1.toCore hi1.total (l.length - (s.capacity - s.totalSize))
      rw [p1]
      obtain ⟨q1, q2, q3, q4, q5, q6⟩ := p4 (p3.trans (by show s.now + l.length + 2 * s.map.length ≤ _; omega))
      exact ⟨_, _, rfl, key s2 p2 p3 q1 (fun x hx => q3.mem_iff.1 (by simp [hx]))⟩
    · exact ⟨_, _, rfl, key _ le_rfl (by simp) hi1.toCore (fun x hx => hx)⟩

/-! ## Witnesses -/

/-- The exponent 2. -/
theorem good_two : Good (.fin 2) := Or.inr ⟨2, by norm_num, rfl⟩

/-- Calls, and what `size()` tells and the keys held after. -/
def sizes (n : Nat) (cs : List (LrfuBTree.Call Nat Nat)) : Option (Nat × List Nat) :=
  match LrfuBTree.execs (.fin 2) (LrfuBTree.new n 0) cs with
  | .ok (_, s) => some (s.totalSize, (contents s).map Prod.fst)
  | .panic => none

/-- **C105 (drift).** Two elements pushed, one popped: both are evicted and `size()` tells that one is held. -/
theorem C105_drift : sizes 3 [.push [(1, 1), (2, 2)], .pop 1] = some (1, []) := by decide +kernel

/-- **C105 (overfull).** `size()` can exceed the capacity, here of 3; the next push panics. -/
theorem C105_overfull :
    sizes 3 [.push [(1, 1), (2, 2)], .pop 1, .push [(3, 3), (4, 4)], .pop 1, .push [(5, 5), (6, 6)]] = some (4, [5, 6]) ∧
    sizes 3 [.push [(1, 1), (2, 2)], .pop 1, .push [(3, 3), (4, 4)], .pop 1, .push [(5, 5), (6, 6)], .push [(7, 7)]] = none := by
  decide +kernel

/-- A state with two elements. -/
theorem two_reached : ∃ s : State Nat Nat, Reached (.fin 2) 3 0 s ∧ (contents s).map Prod.fst = [1, 2] ∧ s.now = 4 ∧ s.totalSize = 2 := by
  have : (match LrfuBTree.execs (.fin 2) (LrfuBTree.new 3 0) [.push [(1, 1), (2, 2)]] with
      | .ok (_, s) => decide ((contents s).map Prod.fst = [1, 2] ∧ s.now = 4 ∧ s.totalSize = 2)
      | .panic => false) = true := by decide +kernel
  split at this
  · rename_i out s h
    simp only [decide_eq_true_eq] at this
    exact ⟨s, ⟨_, _, by simp [Distinct], h, by omega⟩, this⟩
  · cases this

/-- The full statement does not hold. -/
theorem C105_false : ¬ C105_full := by
  intro h
  obtain ⟨out, s, h1, h2, h3, h4⟩ := h (.fin 2) good_two 3 [.push [(1, 1), (2, 2)], .pop 1] (by simp [Distinct])
  have := C105_drift
  simp only [sizes, h1, Option.some.injEq, Prod.mk.injEq] at this
  rw [this.1] at h2
  have h5 : (contents s).length = 0 := by
    have := congrArg length this.2
    simpa using this
  rw [contents_eq, length_map] at h5
  omega

/-- A state with two elements: both lookups panic, and so does pushing either key again. -/
example : ∃ s : State Nat Nat, Reached (.fin 2) 3 0 s ∧ LrfuBTree.exec (.fin 2) s (.take 1) = .panic ∧
    LrfuBTree.exec (.fin 2) s (.get 2) = .panic ∧ LrfuBTree.exec (.fin 2) s (.push [(1, 7)]) = .panic ∧
    ∃ out s', LrfuBTree.exec (.fin 2) s (.push [(7, 7), (8, 8)]) = .ok (out, s') := by
  obtain ⟨s, h1, h2, h3, h4⟩ := two_reached
  have hl : (contents s).length = 2 := by have := congrArg length h2; simpa using this
  have hb : s.now + 1 + 2 * (contents s).length ≤ 0 + 2 ^ 24 := by rw [h3, hl]; norm_num
  refine ⟨s, h1, (C105_take_panics good_two h1 (k := 1) (by rw [h2]; simp) (by omega)).1,
    (C105_take_panics good_two h1 (k := 2) (by rw [h2]; simp) (by omega)).2.1,
    (C105_take_panics good_two h1 (k := 1) (by rw [h2]; simp) (by omega)).2.2 [(1, 7)] (by simp) (by simp) (by simpa using hb), ?_⟩
  obtain ⟨out, s', h5, _⟩ := C105_push good_two h1 (l := [(7, 7), (8, 8)]) (by simp) (Or.inr ⟨by omega, by rw [h2]; simp⟩)
    (by rw [h3, hl]; norm_num)
  exact ⟨out, s', h5⟩

end Byoc.LrfuBTreeProps
