import Verif.Props.CacheProps
import Verif.Proofs.Exact

/-!
# C109: a `Batch` decorated with `Fifo`, used as a cache
-/

namespace Byoc.BatchCacheProps

open ArrayProps Policy PolicyProps CellProps TierProps CacheProps Textbook

variable {K V : Type}

/-! ## Full Arrays -/

/-- An Array of the batch. -/
abbrev Arr (K V : Type) : Type := Byoc.Array K (FifoCell V)

/-- The element without the number of its cell. -/
def plain (e : K × FifoCell V) : K × V := (e.1, e.2.value)

/-- Total capacity. -/
def caps (s : List (Arr K V)) : Nat := (s.map fun a => a.capacity).sum

/-- What is stored. -/
def stored (s : List (Arr K V)) : List (K × FifoCell V) := s.flatMap fun a => a.values

/-- How many elements were pushed before the `t`-th. -/
def old (t : Nat) (a : Arr K V) : Nat := a.values.countP fun e => decide (e.2.counter < t)

/-- How many more pushes, at most, until no element pushed before the `t`-th is left. -/
def left (t : Nat) : List (Arr K V) → Nat
  | [] => 0
  | c :: cs => if old t c = 0 then left t cs else old t c + caps cs

/-- A valid Array, which counts elements. -/
abbrev Ok (a : Arr K V) : Prop := Array.Inv (fun _ => 1) a

theorem Ok.size {a : Arr K V} (h : Ok a) : a.totalSize = a.values.length := by
  rw [h.1, total_one]

theorem Ok.length_le {a : Arr K V} (h : Ok a) : a.values.length ≤ a.capacity := h.size ▸ h.2

theorem left_le (t : Nat) (s : List (Arr K V)) (h : ∀ c ∈ s, Ok c) : left t s ≤ caps s := by
  induction s with
  | nil => exact Nat.le_refl _
  | cons c cs ih =>
    have h1 : old t c ≤ c.capacity := Nat.le_trans List.countP_le_length (h c (by simp)).length_le
    have h2 := ih fun c hc => h c (by simp [hc])
    have h3 : caps (c :: cs) = c.capacity + caps cs := by simp [caps]
    unfold left
    split <;> omega

theorem left_zero {t : Nat} {s : List (Arr K V)} (hi : ∀ c ∈ s, Ok c) (h : left t s = 0) :
    ∀ e ∈ stored s, t ≤ e.2.counter := by
  induction s with
  | nil => simp [stored]
  | cons c cs ih =>
    unfold left at h
    split at h
    · rename_i hc
      have hc' := List.countP_eq_zero.1 hc
      intro e he
      simp only [stored, List.flatMap_cons, List.mem_append] at he
      rcases he with he | he
      · simpa using hc' e he
      · exact ih (fun c hc => hi c (by simp [hc])) h e he
    · omega

variable [LinearOrder K]

/-- One element pushed in a full Array drives out one: itself if there is no capacity, otherwise the oldest. -/
theorem push_full {srt srtS : Sorter (K × FifoCell V)} (hS : ByValue srt)
    {a : Arr K V} (hi : Ok a) (hf : a.values.length = a.capacity) (x : K × FifoCell V) :
    ∃ y a', a.push (fun _ => 1) srt srtS [x] = .ok ([y], a') ∧ Ok a' ∧ a'.capacity = a.capacity ∧
      (y :: a'.values).Perm (x :: a.values) ∧
      ((a.values = [] ∧ y = x) ∨ (y ∈ a.values ∧ ∀ z ∈ a.values, y.2.counter ≤ z.2.counter)) := by
  obtain ⟨out, a', h1, h2, h3, h4⟩ := Array.push_spec (fun _ => 1) srt srtS a [x] hi
  have hlen := (Array.slots srt srtS).pushExact a [x] out a' hi h1
  have hsz : (arrayBlock (fun _ => 1) srt srtS).size a = a.values.length := hi.size
  have hcap : (arrayBlock (fun _ => 1) srt srtS).capacity a = a.capacity := rfl
  rw [hsz, hcap] at hlen
  simp only [List.length_cons, List.length_nil] at hlen
  obtain ⟨y, rfl⟩ : ∃ y, out = [y] := List.length_eq_one_iff.1 (by omega)
  refine ⟨y, a', h1, h2, h3, by perms [h4], ?_⟩
  rcases Array.push_cases (fun _ => 1) srt srtS a [x] hi with ⟨g1, g2⟩ | ⟨g1, g2, g3⟩ |
    ⟨g1, p, q, g2, g3, g4, g5, g6⟩ | ⟨g1, g2, out', b, g3, g4⟩
  · rw [h1] at g2; cases g2
  · rw [h1] at g3
    simp only [Res.ok.injEq, Prod.mk.injEq] at g3
    right
    rw [← g3.1]
    simp
  · simp only [total_one, List.length_cons, List.length_nil] at g1
    have hv : a.values = [] := List.length_eq_zero_iff.1 (by omega)
    left
    refine ⟨hv, ?_⟩
    have hc := Ok.length_le h2
    have hv' : a'.values = [] := List.length_eq_zero_iff.1 (by omega)
    rw [hv, hv'] at h4
    simpa using h4
  · rw [h1] at g4
    simp only [Res.ok.injEq, Prod.mk.injEq] at g4
    rw [← g4.1] at g3
    obtain ⟨o1, o2⟩ := Array.pop_order hS hi g3
    right
    have hy : y ∈ a.values := o1.mem_iff.1 (by simp)
    refine ⟨hy, fun z hz => ?_⟩
    rcases List.mem_append.1 (o1.mem_iff.2 hz) with hz | hz
    · exact (fifo_le _ _).1 (o2 z hz y (by simp))
    · rw [List.mem_singleton.1 hz]

/-- One element pushed in a `Batch` of full Arrays goes through all of them. -/
theorem push_batch_full {srt srtS : Sorter (K × FifoCell V)} (hS : ByValue srt) (s : List (Arr K V)) :
    ∀ (_ : ∀ c ∈ s, Ok c ∧ c.values.length = c.capacity) (x : K × FifoCell V), ∃ (y : K × FifoCell V) (s' : List (Arr K V)),
      Batch.pushLoop (arrayBlock (fun _ => 1) srt srtS) s [x] = .ok ([y], [], s') ∧
      (∀ c ∈ s', Ok c) ∧ s'.map (fun a => a.capacity) = s.map (fun a => a.capacity) ∧
      (y :: stored s').Perm (x :: stored s) ∧
      ∀ t, t ≤ x.2.counter → ∀ i, left t (s'.take i) ≤ left t (s.take i) - 1 := by
  induction s with
  | nil => exact fun _ x => ⟨x, [], rfl, by simp, rfl, List.Perm.refl _, by simp [left]⟩
  | cons c cs ih =>
    intro hc x
    obtain ⟨y, c', h1, h2, h3, h4, h5⟩ := push_full (srtS := srtS) hS (hc c (by simp)).1 (hc c (by simp)).2 x
    obtain ⟨z, cs', g1, g2, g3, g4, g5⟩ := ih (fun c h => hc c (by simp [h])) y
    refine ⟨z, c' :: cs', ?_, ?_, by simp [h3, g3], ?_, ?_⟩
    · replace h1 : (arrayBlock (fun _ => 1) srt srtS).push c [x] = .ok ([y], c') := h1
      simp [Batch.pushLoop, h1, g1]
      rfl
    · intro d hd
      rcases List.mem_cons.1 hd with rfl | hd
      · exact h2
      · exact g2 d hd
    · simp only [stored, List.flatMap_cons]
      simp only [stored] at g4
      perms [h4, g4]
    · intro t ht i
      cases i with
      | zero => simp [left]
      | succ i =>
        have hcnt := h4.countP_eq fun e => decide (e.2.counter < t)
        have hx : ¬ x.2.counter < t := by omega
        simp only [List.countP_cons, decide_eq_true_eq, hx, if_false] at hcnt
        have e1 : List.countP (fun e : K × FifoCell V => decide (e.2.counter < t)) c'.values = old t c' := rfl
        have e2 : List.countP (fun e : K × FifoCell V => decide (e.2.counter < t)) c.values = old t c := rfl
        rw [e1, e2] at hcnt
        simp only [List.take_succ_cons]
        by_cases h0 : old t c = 0
        · have hy : t ≤ y.2.counter := by
            by_contra hlt
            rw [if_pos (by omega)] at hcnt
            omega
          have h0' : old t c' = 0 := by omega
          rw [left, if_pos h0', left, if_pos h0]
          exact g5 t hy i
        · have hy : y.2.counter < t := by
            have hpos : 0 < List.countP (fun e : K × FifoCell V => decide (e.2.counter < t)) c.values := by
              rw [e2]; omega
            obtain ⟨z, hz, hz'⟩ := List.countP_pos_iff.1 hpos
            rcases h5 with ⟨h5, -⟩ | ⟨-, h5⟩
            · rw [h5] at hz; cases hz
            · have := h5 z hz
              simp only [decide_eq_true_eq] at hz'
              omega
          rw [if_pos hy] at hcnt
          have hcaps : caps (cs'.take i) = caps (cs.take i) := by
            simp only [caps, List.map_take, g3]
          rw [left, left, if_neg h0]
          split
          · have := left_le t (cs'.take i) fun d hd => g2 d (List.mem_of_mem_take hd)
            omega
          · omega

/-! ## What the batch holds -/

/-- The batch after misses of the keys `h`, in this order. -/
structure Good (fetch : K → V) (s : List (Arr K V)) (n : Nat) (h : List K) : Prop where
  ok : ∀ c ∈ s, Ok c
  fac : n = h.length
  keys : ((stored s).map Prod.fst).Nodup
  val : ∀ e ∈ stored s, e.2.value = fetch e.1 ∧ h[e.2.counter]? = some e.1
  len : (stored s).length = min (caps s) h.length
  pot : ∀ i t, caps s ≤ t → t ≤ h.length → left t (s.take i) ≤ caps (s.take i) - (h.length - t)

omit [LinearOrder K] in
theorem stored_le (s : List (Arr K V)) (h : ∀ c ∈ s, Ok c) : (stored s).length ≤ caps s := by
  induction s with
  | nil => exact Nat.le_refl _
  | cons c cs ih =>
    have := ih fun c hc => h c (by simp [hc])
    have := (h c (by simp)).length_le
    simp only [stored, List.flatMap_cons, List.length_append, caps, List.map_cons, List.sum_cons] at *
    omega

omit [LinearOrder K] in
/-- As many elements as capacity: every Array is full. -/
theorem full_of_length {s : List (Arr K V)} (h : ∀ c ∈ s, Ok c) (hl : (stored s).length = caps s) :
    ∀ c ∈ s, Ok c ∧ c.values.length = c.capacity := by
  induction s with
  | nil => simp
  | cons c cs ih =>
    have h1 := stored_le cs fun c hc => h c (by simp [hc])
    have h2 := (h c (by simp)).length_le
    have h3 : (stored (c :: cs)).length = c.values.length + (stored cs).length := by
      simp [stored]
    have h4 : caps (c :: cs) = c.capacity + caps cs := by simp [caps]
    intro d hd
    rcases List.mem_cons.1 hd with rfl | hd
    · exact ⟨h d (by simp), by omega⟩
    · exact ih (fun c hc => h c (by simp [hc])) (by omega) d hd

omit [LinearOrder K] in
theorem length_of_full {s : List (Arr K V)} (h : ∀ c ∈ s, Ok c ∧ c.values.length = c.capacity) :
    (stored s).length = caps s := by
  induction s with
  | nil => rfl
  | cons c cs ih =>
    have h1 := ih fun c hc => h c (by simp [hc])
    have h2 := (h c (by simp)).2
    have h3 : (stored (c :: cs)).length = c.values.length + (stored cs).length := by
      simp [stored]
    have h4 : caps (c :: cs) = c.capacity + caps cs := by simp [caps]
    omega

omit [LinearOrder K] in
/-- Elements of distinct keys, numbered with places of `h` from `m` on, as many as these: the keys of `h` from `m` on. -/
theorem keys_perm {fetch : K → V} {l : List (K × FifoCell V)} {h : List K} {m : Nat}
    (hn : (l.map Prod.fst).Nodup) (hv : ∀ e ∈ l, e.2.value = fetch e.1 ∧ h[e.2.counter]? = some e.1)
    (hm : ∀ e ∈ l, m ≤ e.2.counter) (hl : h.length - m ≤ l.length) :
    (l.map plain).Perm ((h.drop m).map fun k => (k, fetch k)) := by
  have hc : (l.map fun e => e.2.counter).Nodup := by
    have : l.Nodup := List.Nodup.of_map _ hn
    refine this.map_on ?_
    intro x hx y hy e
    have h1 := (hv x hx).2
    have h2 := (hv y hy).2
    rw [e, h2] at h1
    exact (List.inj_on_of_nodup_map hn) hx hy (Option.some.inj h1).symm
  have hsub : (l.map fun e => e.2.counter) ⊆ List.range' m (h.length - m) := by
    intro c hc
    obtain ⟨e, he, rfl⟩ := List.mem_map.1 hc
    have h1 := hm e he
    obtain ⟨h2, -⟩ := List.getElem?_eq_some_iff.1 (hv e he).2
    simp only [List.mem_range'_1]
    omega
  have hp : (l.map fun e => e.2.counter).Perm (List.range' m (h.length - m)) := by
    refine (List.subperm_of_subset hc hsub).perm_of_length_le ?_
    simpa using hl
  have h1 := hp.map fun c => h[c]?
  have h2 : (l.map fun e => e.2.counter).map (fun c => h[c]?) = (l.map Prod.fst).map some := by
    rw [List.map_map, List.map_map]
    exact List.map_congr_left fun e he => (hv e he).2
  have h3 : (List.range' m (h.length - m)).map (fun c => h[c]?) = (h.drop m).map some := by
    apply List.ext_getElem?
    intro i
    simp only [List.getElem?_map, List.getElem?_drop]
    by_cases hi : i < h.length - m
    · rw [List.getElem?_range' (by omega)]
      simp only [Option.map_some, one_mul]
      rw [List.getElem?_eq_getElem (by omega)]
      rfl
    · rw [List.getElem?_eq_none (by simp; omega), List.getElem?_eq_none (by omega)]
      rfl
  rw [h2, h3] at h1
  have h4 : (l.map Prod.fst).Perm (h.drop m) := by
    have := h1.filterMap id
    simpa [List.filterMap_map] using this
  have h5 := h4.map fun k => (k, fetch k)
  rw [List.map_map] at h5
  have h6 : l.map plain = l.map ((fun k => (k, fetch k)) ∘ Prod.fst) := by
    refine List.map_congr_left fun e he => ?_
    simp only [plain, Function.comp]
    exact Prod.ext rfl (hv e he).1
  rw [h6]
  exact h5

omit [LinearOrder K] in
/-- After twice as many misses as the capacity, the first Arrays of the batch hold the keys last missed. -/
theorem Good.warm {fetch : K → V} {s : List (Arr K V)} {n : Nat} {h : List K} (g : Good fetch s n h)
    (hw : 2 * caps s ≤ h.length) (i : Nat) :
    ((stored (s.take i)).map plain).Perm
      ((h.drop (h.length - caps (s.take i))).map fun k => (k, fetch k)) ∧
    ∀ e ∈ stored (s.take i), h.length - caps (s.take i) ≤ e.2.counter := by
  have hcap : caps (s.take i) ≤ caps s := by
    have : caps s = caps (s.take i) + caps (s.drop i) := by
      conv_lhs => rw [← List.take_append_drop i s]
      simp only [caps, List.map_append, List.sum_append]
    omega
  have hfull := full_of_length g.ok (by rw [g.len]; omega)
  have hlen := length_of_full (s := s.take i) fun c hc => hfull c (List.mem_of_mem_take hc)
  have hpot := g.pot i (h.length - caps (s.take i)) (by omega) (by omega)
  have hz := left_zero (fun c hc => g.ok c (List.mem_of_mem_take hc)) (Nat.eq_zero_of_le_zero (by omega : left
    (h.length - caps (s.take i)) (s.take i) ≤ 0))
  have hsub : (stored (s.take i)).Sublist (stored s) := by
    conv_rhs => rw [← List.take_append_drop i s]
    simp only [stored, List.flatMap_append]
    exact List.sublist_append_left _ _
  refine ⟨keys_perm ((hsub.map _).nodup g.keys) (fun e he => g.val e (hsub.mem he)) hz (by omega), hz⟩

/-! ## Lookups -/

/-- A read of a batch leaves it as it is. -/
theorem get_same (f : FifoCell V → FifoCell V) (hf : ∀ c, f c = c) (k : K) (s : List (Arr K V)) :
    (∀ c ∈ s, Ok c) → ∃ o, batchAccess (fun a k f => .ok (Array.getMut a k f)) s k f = .ok (o, s) ∧
      (o = none → k ∉ (stored s).map Prod.fst) ∧ ∀ c, o = some c → (k, c) ∈ stored s := by
  induction s with
  | nil => exact fun _ => ⟨none, rfl, by simp [stored], by simp⟩
  | cons a cs ih =>
    intro hi
    obtain ⟨o, a', h1, -, -, h4⟩ := Array.getMut_spec (fun _ => 1) a k f (hi a (by simp)) fun _ _ => rfl
    have hsame : a' = a := by
      cases o with
      | none => exact h4.2
      | some v =>
        obtain ⟨i, g1, g2, g3, -⟩ := h4
        have h5 : a' = { a with values := a.values.set i (k, f v) } := by
          have := h1
          simp only [Array.getMut, g1, g2, Prod.mk.injEq] at this
          exact this.2.symm
        obtain ⟨hi', g2'⟩ := List.getElem?_eq_some_iff.1 g2
        rw [h5, hf, ← g2', List.set_getElem_self]
    subst hsame
    cases o with
    | none =>
      obtain ⟨o, g1, g2, g3⟩ := ih fun c hc => hi c (by simp [hc])
      refine ⟨o, by simp [batchAccess, h1, g1], ?_, ?_⟩
      · intro ho
        have h5 := g2 ho
        simp only [stored, List.flatMap_cons, List.map_append, List.mem_append, not_or]
        refine ⟨fun hm => ?_, h5⟩
        obtain ⟨⟨k', c⟩, hc, rfl⟩ := List.mem_map.1 hm
        exact h4.1 ⟨c, hc⟩
      · intro c hc
        simp only [stored, List.flatMap_cons, List.mem_append]
        exact .inr (g3 c hc)
    | some v =>
      obtain ⟨i, -, g2, -⟩ := h4
      refine ⟨some v, by simp [batchAccess, h1], by simp, ?_⟩
      rintro c hc
      cases hc
      simp only [stored, List.flatMap_cons, List.mem_append]
      exact .inl (List.mem_of_getElem? g2)

/-! ## Cached lookups -/

/-- A `Batch` of Arrays which count elements. -/
abbrev batchOf (srt srtS : Sorter (K × FifoCell V)) : Stack K (FifoCell V) :=
  Stack.batch (Stack.array (fun _ => 1) srt srtS)

omit [LinearOrder K] in
/-- The elements pushed are numbered with the next place of `h`. -/
theorem Good.grow {fetch : K → V} {s s' : List (Arr K V)} {n : Nat} {h : List K} (g : Good fetch s n h) {k : K}
    (hk : k ∉ (stored s).map Prod.fst) (hok : ∀ c ∈ s', Ok c) (hcap : caps s' = caps s)
    (hsub : (stored s').Subperm ((k, ⟨fetch k, n⟩) :: stored s))
    (hlen : (stored s').length = min (caps s) (h.length + 1))
    (hpot : ∀ i t, caps s ≤ t → t ≤ h.length → left t (s'.take i) ≤ caps (s'.take i) - (h.length + 1 - t)) :
    Good fetch s' (n + 1) (h ++ [k]) where
  ok := hok
  fac := by simp [g.fac]
  keys := by
    obtain ⟨l, h1, h2⟩ := hsub
    refine (h1.map Prod.fst).nodup_iff.1 ((h2.map Prod.fst).nodup ?_)
    simpa using ⟨by simpa using hk, g.keys⟩
  val := by
    intro e he
    rcases List.mem_cons.1 (hsub.subset he) with rfl | he
    · refine ⟨rfl, ?_⟩
      simp [g.fac]
    · obtain ⟨h1, h2⟩ := g.val e he
      obtain ⟨h3, -⟩ := List.getElem?_eq_some_iff.1 h2
      exact ⟨h1, by rw [List.getElem?_append_left h3]; exact h2⟩
  len := by simp [hlen, hcap]
  pot := by
    intro i t h1 h2
    simp only [List.length_append, List.length_cons, List.length_nil] at h2 ⊢
    by_cases ht : t ≤ h.length
    · exact hpot i t (by omega) ht
    · have := left_le t (s'.take i) fun c hc => hok c (List.mem_of_mem_take hc)
      omega

theorem push_step {srt srtS : Sorter (K × FifoCell V)} (hS : ByValue srt) {fetch : K → V}
    {s : List (Arr K V)} {n : Nat} {h : List K} (g : Good fetch s n h) {k : K}
    (hk : k ∉ (stored s).map Prod.fst) :
    ∃ (out : List (K × FifoCell V)) (s' : List (Arr K V)),
      (batchOf srt srtS).block.push s [(k, ⟨fetch k, n⟩)] = .ok (out, s') ∧
      Good fetch s' (n + 1) (h ++ [k]) ∧ caps s' = caps s := by
  by_cases hf : caps s ≤ h.length
  · have hfull := full_of_length g.ok (by rw [g.len]; omega)
    obtain ⟨y, s', h1, h2, h3, h4, h5⟩ := push_batch_full (srtS := srtS) hS s hfull (k, ⟨fetch k, n⟩)
    have hcap : caps s' = caps s := by simp only [caps, h3]
    refine ⟨[y], s', ?_, ?_, hcap⟩
    · show Batch.push (arrayBlock (fun _ => 1) srt srtS) s _ = _
      simp [Batch.push, h1]
      rfl
    · refine g.grow hk h2 hcap ((List.sublist_cons_self _ _).subperm.trans h4.subperm) ?_ ?_
      · have := h4.length_eq
        simp only [List.length_cons, g.len] at this
        omega
      · intro i t t1 t2
        have e1 := h5 t (by simpa [g.fac] using t2) i
        have e2 := g.pot i t t1 t2
        have e3 : caps (s'.take i) = caps (s.take i) := by simp only [caps, List.map_take, h3]
        omega
  · have hL := (batchOf srt srtS).lawful (p := True) trivial trivial
    have hSl := (batchOf srt srtS).slots True trivial (fun _ => rfl)
    have hI : (batchOf srt srtS).Inv True s := g.ok
    obtain ⟨out, (s' : List (Arr K V)), h1, h2, h3, h4⟩ := hL.push s [(k, ⟨fetch k, n⟩)] hI trivial
    replace h3 : caps s' = caps s := h3
    replace h4 : (stored s' ++ out).Perm (stored s ++ [(k, ⟨fetch k, n⟩)]) := h4
    have hlen := hSl.pushExact _ _ _ _ hI h1
    rw [hSl.size _ hI] at hlen
    replace hlen : out.length = (stored s).length + 1 - caps s := hlen
    rw [g.len] at hlen
    have hout : out = [] := List.length_eq_zero_iff.1 (by omega)
    subst hout
    refine ⟨[], s', h1, ?_, h3⟩
    have h5 : (stored s').Perm ((k, ⟨fetch k, n⟩) :: stored s) := by perms [h4]
    refine g.grow hk h2 h3 h5.subperm ?_ ?_
    · have := h5.length_eq
      simp only [List.length_cons, g.len] at this
      omega
    · intro i t t1 t2
      omega

theorem cached_step {srt srtS : Sorter (K × FifoCell V)} (hS : ByValue srt) (fetch : K → V)
    {s : List (Arr K V)} {n : Nat} {h : List K} (g : Good fetch s n h) (k : K) :
    ∃ (b : Bool) (s' : List (Arr K V)) (n' : Nat),
      cached (fifoCells (batchOf srt srtS)) fetch (s, n) k = .ok ((b, fetch k), (s', n')) ∧
      (b = true ↔ k ∈ (stored s).map Prod.fst) ∧
      Good fetch s' n' (if b then h else h ++ [k]) ∧ caps s' = caps s := by
  obtain ⟨o, h1, h2, h3⟩ := get_same (fun c => effect ((fifoAccess V).touches n [Use.read.touch]) c) (fun _ => rfl) k s g.ok
  have hget : (fifoCells (batchOf srt srtS)).get (s, n) k [Use.read.touch] =
      .ok (o.map (fifo V).unwrap, (s, n)) := by
    show (do let (o, c) ← (cellsOf (batchOf srt srtS).gets).get s k ((fifoAccess V).touches n [Use.read.touch]); _ : Res _) = _
    rw [show (cellsOf (batchOf srt srtS).gets).get s k ((fifoAccess V).touches n [Use.read.touch]) = .ok (o, s) from h1]
    cases o <;> rfl
  cases o with
  | some c =>
    have hm := h3 c rfl
    have hv : (fifo V).unwrap c = fetch k := (g.val _ hm).1
    refine ⟨true, s, n, ?_, ?_, by simpa using g, rfl⟩
    · rw [← hv]; exact cached_hit hget
    · simp only [true_iff]
      exact List.mem_map.2 ⟨_, hm, rfl⟩
  | none =>
    have hk := h2 rfl
    obtain ⟨out, s', n', q⟩ : ∃ (out : List (K × V)) (s' : List (Arr K V)) (n' : Nat),
        (fifoOf (batchOf srt srtS)).block.push (s, n) [(k, fetch k)] = .ok (out, (s', n')) ∧
        Good fetch s' n' (h ++ [k]) ∧ caps s' = caps s := by
      obtain ⟨out, s', e1, e2, e3⟩ := push_step (srtS := srtS) hS g hk
      refine ⟨out.map (strip (fifo V)), s', n + 1, ?_, e2, e3⟩
      show (do let (out, c) ← (batchOf srt srtS).block.push s [(k, ⟨fetch k, n⟩)]; _ : Res _) = _
      rw [e1]
      rfl
    refine ⟨false, s', n', cached_miss hget q.1, by simpa using hk, by simpa using q.2.1, q.2.2⟩

/-- The keys missed, in this order: `found` tells which were found. -/
def missed : List K → List Bool → List K
  | k :: ks, b :: bs => if b then missed ks bs else k :: missed ks bs
  | _, _ => []

omit [LinearOrder K] in
theorem take_cons_take (n : Nat) (k : K) (l : List K) : (k :: l.take n).take n = (k :: l).take n := by
  cases n with
  | zero => rfl
  | succ n => simp [List.take_take]

/-- The keys last missed, the last one first. -/
def lastMissed (n : Nat) (h : List K) : List K := h.reverse.take n

omit [LinearOrder K] in
theorem lastMissed_perm (n : Nat) (h : List K) : (lastMissed n h).Perm (h.drop (h.length - n)) := by
  rw [lastMissed, List.take_reverse]
  exact List.reverse_perm _

omit [LinearOrder K] in
theorem Good.holds {fetch : K → V} {s : List (Arr K V)} {n : Nat} {h : List K} (g : Good fetch s n h)
    (hw : 2 * caps s ≤ h.length) :
    ((stored s).map plain).Perm ((lastMissed (caps s) h).map fun k => (k, fetch k)) := by
  have := (g.warm hw s.length).1
  rw [List.take_length] at this
  exact this.trans ((lastMissed_perm _ _).symm.map _)

omit [LinearOrder K] in
theorem Good.few {fetch : K → V} {s : List (Arr K V)} {n : Nat} {h : List K} (g : Good fetch s n h)
    (hw : h.length ≤ caps s) :
    ((stored s).map plain).Perm (h.map fun k => (k, fetch k)) := by
  have := keys_perm (m := 0) g.keys g.val (fun _ _ => Nat.zero_le _) (by rw [g.len]; omega)
  simpa using this

theorem cached_all {srt srtS : Sorter (K × FifoCell V)} (hS : ByValue srt) (fetch : K → V) (ks : List K) :
    ∀ {s : List (Arr K V)} {n : Nat} {h : List K}, Good fetch s n h →
    ∃ (found : List Bool) (s' : List (Arr K V)) (n' : Nat),
      cachedAll (fifoCells (batchOf srt srtS)) fetch (s, n) ks = .ok (found.zip (ks.map fetch), (s', n')) ∧
      found.length = ks.length ∧ Good fetch s' n' (h ++ missed ks found) ∧ caps s' = caps s ∧
      (2 * caps s ≤ h.length → found = hits (fifoStep (caps s)) (lastMissed (caps s) h) ks ∧
        lastMissed (caps s) (h ++ missed ks found) = ks.foldl (fifoStep (caps s)) (lastMissed (caps s) h)) := by
  induction ks with
  | nil => exact fun {s n h} g => ⟨[], s, n, rfl, rfl, by simpa [missed] using g, rfl, fun _ => ⟨rfl, by simp [missed]⟩⟩
  | cons k ks ih =>
    intro s n h g
    obtain ⟨b, s1, n1, h1, h2, h3, h4⟩ := cached_step (srtS := srtS) hS fetch g k
    obtain ⟨found, s2, n2, g1, g2, g3, g4, g5⟩ := ih h3
    refine ⟨b :: found, s2, n2, ?_, by simp [g2], ?_, g4.trans h4, ?_⟩
    · simpa using cachedAll_cons h1 g1
    · cases b with
      | true => simpa [missed] using g3
      | false => simpa [missed] using g3
    · intro hw
      have hkeys : (lastMissed (caps s) h).Perm ((stored s).map Prod.fst) := by
        have := (g.holds hw).map Prod.fst
        have e : ((stored s).map plain).map Prod.fst = (stored s).map Prod.fst := by
          rw [List.map_map]; rfl
        rw [e] at this
        simpa [Function.comp_def] using this.symm
      have hstep : fifoStep (caps s) (lastMissed (caps s) h) k = lastMissed (caps s) (if b then h else h ++ [k]) := by
        unfold fifoStep
        by_cases hk : k ∈ lastMissed (caps s) h
        · have : b = true := h2.2 (hkeys.mem_iff.1 hk)
          simp [hk, this]
        · have : b = false := by
            cases b with
            | true => exact absurd (hkeys.mem_iff.2 (h2.1 rfl)) hk
            | false => rfl
          simp only [hk, if_false, this, Bool.false_eq_true]
          rw [lastMissed, lastMissed, List.reverse_append, List.reverse_singleton, List.singleton_append, take_cons_take]
      have hdec : b = decide (k ∈ lastMissed (caps s) h) := by
        rw [Bool.eq_iff_iff, h2, decide_eq_true_eq, hkeys.mem_iff]
      obtain ⟨e1, e2⟩ := g5 (by
        rw [h4]
        refine Nat.le_trans hw ?_
        cases b <;> simp)
      rw [h4] at e1 e2
      rw [hits, List.foldl_cons, hstep, ← hdec, ← e1, ← e2]
      refine ⟨rfl, ?_⟩
      cases b <;> simp [missed]

/-! ## `pop` -/

omit [LinearOrder K] in
theorem counters_nodup {fetch : K → V} {l : List (K × FifoCell V)} {h : List K}
    (hn : (l.map Prod.fst).Nodup) (hv : ∀ e ∈ l, e.2.value = fetch e.1 ∧ h[e.2.counter]? = some e.1) :
    (l.map fun e => e.2.counter).Nodup := by
  have : l.Nodup := List.Nodup.of_map _ hn
  refine this.map_on ?_
  intro x hx y hy e
  have h1 := (hv x hx).2
  have h2 := (hv y hy).2
  rw [e, h2] at h1
  exact (List.inj_on_of_nodup_map hn) hx hy (Option.some.inj h1).symm

omit [LinearOrder K] in
/-- After twice as many misses as the capacity, the elements of an Array are newer than those of the next ones. -/
theorem Good.sorted {fetch : K → V} {s : List (Arr K V)} {n : Nat} {h : List K} (g : Good fetch s n h)
    (hw : 2 * caps s ≤ h.length) :
    s.Pairwise fun c d => ∀ x ∈ c.values, ∀ y ∈ d.values, y.2.counter < x.2.counter := by
  rw [List.pairwise_iff_getElem]
  intro i j hi hj hij x hx y hy
  obtain ⟨h1, h2⟩ := g.warm hw (i + 1)
  have hx' : x ∈ stored (s.take (i + 1)) := by
    simp only [stored, List.mem_flatMap]
    exact ⟨s[i], List.mem_take_iff_getElem.2 ⟨i, by omega, rfl⟩, hx⟩
  have hy' : y ∈ stored (s.drop (i + 1)) := by
    simp only [stored, List.mem_flatMap]
    refine ⟨s[j], List.mem_drop_iff_getElem.2 ⟨j - (i + 1), by omega, ?_⟩, hy⟩
    congr 1
    omega
  have happ : stored s = stored (s.take (i + 1)) ++ stored (s.drop (i + 1)) := by
    conv_lhs => rw [← List.take_append_drop (i + 1) s]
    simp only [stored, List.flatMap_append]
  have hxc := h2 x hx'
  by_contra hlt
  obtain ⟨v1, v2⟩ := g.val y (by rw [happ]; exact List.mem_append_right _ hy')
  have hmem : y.1 ∈ h.drop (h.length - caps (s.take (i + 1))) := by
    refine List.mem_of_getElem? (i := y.2.counter - (h.length - caps (s.take (i + 1)))) ?_
    rw [List.getElem?_drop, ← v2]
    congr 1
    omega
  have hk : y.1 ∈ (stored (s.take (i + 1))).map Prod.fst := by
    have := (h1.map Prod.fst).mem_iff (a := y.1)
    rw [List.map_map, List.map_map] at this
    refine this.2 ?_
    rw [List.mem_map]
    exact ⟨y.1, hmem, rfl⟩
  have hn := g.keys
  rw [happ, List.map_append, List.nodup_append] at hn
  exact hn.2.2 _ hk _ (List.mem_map.2 ⟨y, hy', rfl⟩) rfl

theorem pop_loop {srt srtS : Sorter (K × FifoCell V)} (hS : ByValue srt) (r : List (Arr K V)) :
    ∀ (_ : ∀ c ∈ r, Ok c)
      (_ : r.Pairwise fun c d => ∀ x ∈ c.values, ∀ y ∈ d.values, x.2.counter < y.2.counter)
      (n : Nat) (out : List (K × FifoCell V)) (r' : List (Arr K V)),
      Batch.popLoop (arrayBlock (fun _ => 1) srt srtS) r n = .ok (out, r') →
      (stored r' ++ out).Perm (stored r) ∧
      ∀ x ∈ out, ∀ y ∈ stored r', x.2.counter ≤ y.2.counter := by
  induction r with
  | nil =>
    intro _ _ n out r' h
    cases h
    exact ⟨List.Perm.refl _, by simp⟩
  | cons c cs ih =>
    intro hi hp n out r' h
    obtain ⟨out1, c', h1, h2, -, h4, h5⟩ := Array.pop_spec (fun _ => 1) srt c n (hi c (by simp))
    obtain ⟨o1, o2⟩ := Array.pop_order hS (hi c (by simp)) h1
    rw [List.pairwise_cons] at hp
    have hle : c'.totalSize ≤ c.totalSize := by
      rw [Ok.size h2, Ok.size (hi c (by simp))]
      have := h4.length_eq
      rw [List.length_append] at this
      omega
    replace h : (do
      let (out, c') ← c.pop (fun _ => 1) srt n
      let popped ← Res.sub c.totalSize c'.totalSize
      if popped ≥ n then return (out, c' :: cs)
      let (outs, cs) ← Batch.popLoop (arrayBlock (fun _ => 1) srt srtS) cs (n - popped)
      return (out ++ outs, c' :: cs) : Res (List (K × FifoCell V) × List (Arr K V))) = .ok (out, r') := h
    simp only [h1, Res.ok_bind, Res.sub_ok hle] at h
    have hstore : ∀ (a : Arr K V) (l : List (Arr K V)), stored (a :: l) = a.values ++ stored l := by simp [stored]
    have hin : ∀ y ∈ stored cs, ∀ x ∈ c.values, x.2.counter < y.2.counter := by
      intro y hy x hx
      obtain ⟨d, hd, hy⟩ := List.mem_flatMap.1 hy
      exact hp.1 d hd x hx y hy
    have hout : ∀ x ∈ out1, x ∈ c.values := fun x hx => o1.mem_iff.1 (List.mem_append_right _ hx)
    split at h
    · cases h
      refine ⟨?_, ?_⟩
      · rw [hstore, hstore]; perms [h4]
      · intro x hx y hy
        rw [hstore, List.mem_append] at hy
        rcases hy with hy | hy
        · exact (fifo_le _ _).1 (o2 y hy x hx)
        · exact Nat.le_of_lt (hin y hy x (hout x hx))
    · rename_i hlt
      have hempty : c'.values = [] := by
        rcases h5 with h5 | h5
        · omega
        · exact h5
      cases hrest : Batch.popLoop (arrayBlock (fun _ => 1) srt srtS) cs (n - (c.totalSize - c'.totalSize)) with
      | panic => rw [hrest] at h; cases h
      | ok r =>
        obtain ⟨outs, (ds : List (Arr K V))⟩ := r
        rw [hrest] at h
        replace h : (Res.ok (out1 ++ outs, c' :: ds) : Res (List (K × FifoCell V) × List (Arr K V))) = .ok (out, r') := h
        cases h
        obtain ⟨e1, e2⟩ := ih (fun c hc => hi c (by simp [hc])) hp.2 _ _ _ hrest
        refine ⟨?_, ?_⟩
        · rw [hstore, hstore]; perms [h4, e1]
        · intro x hx y hy
          rw [hstore, hempty, List.nil_append] at hy
          rcases List.mem_append.1 hx with hx | hx
          · exact Nat.le_of_lt (hin y (e1.mem_iff.1 (List.mem_append_left _ hy)) x (hout x hx))
          · exact e2 x hx y hy

omit [LinearOrder K] in
theorem batch_pop_inv {C : Block K V} {s s' : List C.State} {m : Nat} {out : List (K × V)}
    (h : Batch.pop C s m = .ok (out, s')) : ∃ r, Batch.popLoop C s.reverse m = .ok (out, r) ∧ s' = r.reverse := by
  unfold Batch.pop at h
  cases hp : Batch.popLoop C s.reverse m with
  | panic => rw [hp] at h; cases h
  | ok r =>
    obtain ⟨out', r⟩ := r
    rw [hp] at h
    cases h
    exact ⟨r, rfl, rfl⟩

/-- After twice as many misses as the capacity, `pop` evicts the keys missed first. -/
theorem pop_warm {srt srtS : Sorter (K × FifoCell V)} (hS : ByValue srt) {fetch : K → V}
    {s : List (Arr K V)} {n : Nat} {h : List K} (g : Good fetch s n h) (hw : 2 * caps s ≤ h.length)
    (m : Nat) (hm : 0 < m) :
    ∃ (out : List (K × FifoCell V)) (s' : List (Arr K V)),
      (batchOf srt srtS).block.pop s m = .ok (out, s') ∧
      ((stored s').map plain ++ out.map plain).Perm ((stored s).map plain) ∧
      ((stored s').map plain).Perm ((lastMissed (caps s - m) h).map fun k => (k, fetch k)) := by
  have hL := (batchOf srt srtS).lawful (p := True) trivial trivial
  have hI : (batchOf srt srtS).Inv True s := g.ok
  obtain ⟨out, (s' : List (Arr K V)), h1, h2, h3, h4, -⟩ := hL.pop s m hI
  have hlen := (batchOf srt srtS).popExact True trivial (fun _ => rfl) s m out s' hI hm h1
  replace hlen : out.length = min m (stored s).length := hlen
  replace h4 : (stored s' ++ out).Perm (stored s) := h4
  have hfull := length_of_full (full_of_length g.ok (by rw [g.len]; omega))
  have hord : ∀ x ∈ out, ∀ y ∈ stored s', x.2.counter ≤ y.2.counter := by
    replace h1 : Batch.pop (arrayBlock (fun _ => 1) srt srtS) s m = .ok (out, s') := h1
    obtain ⟨(r : List (Arr K V)), hp, hr⟩ := batch_pop_inv h1
    subst hr
    obtain ⟨-, e⟩ := pop_loop hS s.reverse (fun c hc => g.ok c (by simpa using hc))
      (List.pairwise_reverse.2 ((g.sorted hw).imp fun h x hx y hy => h y hy x hx)) m _ r hp
    intro x hx y hy
    refine e x hx y ?_
    obtain ⟨a, ha, hy⟩ := List.mem_flatMap.1 hy
    exact List.mem_flatMap.2 ⟨a, List.mem_reverse.1 ha, hy⟩
  refine ⟨out, s', h1, by rw [← List.map_append]; exact h4.map _, ?_⟩
  have hkeys : ((stored s' ++ out).map Prod.fst).Nodup := (h4.map Prod.fst).nodup_iff.2 g.keys
  have hval : ∀ e ∈ stored s' ++ out, e.2.value = fetch e.1 ∧ h[e.2.counter]? = some e.1 :=
    fun e he => g.val e (h4.mem_iff.1 he)
  have hcnt := counters_nodup hkeys hval
  have hbase : ∀ e ∈ stored s, h.length - caps s ≤ e.2.counter := by
    have := (g.warm hw s.length).2
    rwa [List.take_length] at this
  have hl := h4.length_eq
  rw [List.length_append] at hl
  refine (keys_perm (m := h.length - (caps s - m)) ?_ (fun e he => hval e (List.mem_append_left _ he)) ?_ (by omega)).trans
    ((lastMissed_perm _ _).symm.map _)
  · exact (List.nodup_append.1 (by simpa using hkeys)).1
  · intro y hy
    have hyc := hbase y (h4.mem_iff.1 (List.mem_append_left _ hy))
    rw [List.map_append, List.nodup_append] at hcnt
    have hsub : (out.map fun e => e.2.counter) ⊆
        List.range' (h.length - caps s) (y.2.counter - (h.length - caps s)) := by
      intro c hc
      obtain ⟨x, hx, rfl⟩ := List.mem_map.1 hc
      have e1 := hbase x (h4.mem_iff.1 (List.mem_append_right _ hx))
      have e2 := hord x hx y hy
      have e3 := hcnt.2.2 _ (List.mem_map.2 ⟨y, hy, rfl⟩) _ (List.mem_map.2 ⟨x, hx, rfl⟩)
      simp only [List.mem_range'_1]
      omega
    have hle := (List.subperm_of_subset hcnt.2.1 hsub).length_le
    simp only [List.length_map, List.length_range'] at hle
    omega

/-! ## C109 -/

/-- **C109, full statement.** A `Batch` of Arrays decorated with `Fifo` and used as a cache is the textbook FIFO cache
of the total capacity: the same requests are answered from the cache. -/
def C109_full : Prop :=
  ∀ (K V : Type) (_ : LinearOrder K) (srt srtS : Sorter (K × FifoCell V)), ByValue srt → ByValue srtS →
    ∀ (cs : List Nat) (fetch : K → V) (ks : List K),
    ∃ s, cachedAll (fifoCells (batchOf srt srtS)) fetch (cs.map Array.new, (0 : Nat)) ks =
        .ok ((hits (fifoStep cs.sum) [] ks).zip (ks.map fetch), s)

/-- Two Arrays of one element: 3 drives out 2 and not 1. -/
theorem C109_false : ¬ C109_full := by
  intro h
  obtain ⟨s, hs⟩ := h Nat Nat inferInstance fifoSorter fifoSorter fifoSorter_byValue fifoSorter_byValue
    [1, 1] id [1, 2, 3, 1]
  have : (do
        let (ans, _) ← cachedAll (fifoCells (batchOf fifoSorter fifoSorter)) id
          ([1, 1].map Array.new, (0 : Nat)) [1, 2, 3, 1]
        return ans : Res (List (Bool × Nat))) =
      .ok [(false, 1), (false, 2), (false, 3), (true, 1)] := by decide +kernel
  rw [hs] at this
  replace this : (Res.ok ((hits (fifoStep [1, 1].sum) [] [1, 2, 3, 1]).zip ([1, 2, 3, 1].map id)) : Res (List (Bool × Nat))) =
    .ok [(false, 1), (false, 2), (false, 3), (true, 1)] := this
  revert this
  decide +kernel

omit [LinearOrder K] in
/-- New Arrays. -/
theorem good_new (fetch : K → V) (cs : List Nat) :
    Good fetch (cs.map Array.new : List (Arr K V)) 0 [] ∧ caps (cs.map Array.new : List (Arr K V)) = cs.sum := by
  have hst : stored (cs.map Array.new : List (Arr K V)) = [] := by
    simp only [stored, List.flatMap_eq_nil_iff, List.mem_map]
    rintro _ ⟨n, -, rfl⟩
    rfl
  have hok : ∀ c ∈ (cs.map Array.new : List (Arr K V)), Ok c := by
    intro c hc
    obtain ⟨n, -, rfl⟩ := List.mem_map.1 hc
    exact Array.new_inv _ n
  refine ⟨⟨hok, rfl, by simp [hst], by simp [hst], by simp [hst], ?_⟩, ?_⟩
  · intro i t h1 h2
    have := left_le t ((cs.map Array.new : List (Arr K V)).take i) fun c hc => hok c (List.mem_of_mem_take hc)
    simpa using this
  · simp only [caps, List.map_map]
    congr 1
    exact (List.map_congr_left fun n _ => rfl).trans (List.map_id _)

/-- **C109.** A `Batch` of Arrays counting elements, of any capacities, decorated with `Fifo` and used as a cache: no
call panics and every answer is the value fetched; as long as the total capacity holds all the keys missed, nothing is
evicted; and after twice as many misses as the total capacity, the keys held are those last missed, from then on a
request is answered from the cache exactly when the textbook FIFO cache would answer it, and `pop` evicts the keys
missed first. -/
theorem C109_partial (srt srtS : Sorter (K × FifoCell V)) (hS : ByValue srt) (cs : List Nat) (fetch : K → V)
    (ks : List K) :
    ∃ (found : List Bool) (s : (fifoOf (batchOf srt srtS)).block.State),
      cachedAll (fifoCells (batchOf srt srtS)) fetch (cs.map Array.new, (0 : Nat)) ks =
        .ok (found.zip (ks.map fetch), s) ∧ found.length = ks.length ∧
      ((missed ks found).length ≤ cs.sum →
        ((fifoOf (batchOf srt srtS)).elems s).Perm ((missed ks found).map fun k => (k, fetch k))) ∧
      (2 * cs.sum ≤ (missed ks found).length →
        let l := (missed ks found).reverse.take cs.sum
        ((fifoOf (batchOf srt srtS)).elems s).Perm (l.map fun k => (k, fetch k)) ∧
        (∀ ks', ∃ s', cachedAll (fifoCells (batchOf srt srtS)) fetch s ks' =
            .ok ((hits (fifoStep cs.sum) l ks').zip (ks'.map fetch), s') ∧
          ((fifoOf (batchOf srt srtS)).elems s').Perm
            ((ks'.foldl (fifoStep cs.sum) l).map fun k => (k, fetch k))) ∧
        ∀ m, 0 < m → ∃ out s', (fifoOf (batchOf srt srtS)).block.pop s m = .ok (out, s') ∧
          ((fifoOf (batchOf srt srtS)).elems s' ++ out).Perm ((fifoOf (batchOf srt srtS)).elems s) ∧
          ((fifoOf (batchOf srt srtS)).elems s').Perm ((l.take (cs.sum - m)).map fun k => (k, fetch k))) := by
  obtain ⟨g, hc⟩ := good_new fetch cs
  obtain ⟨found, s, n, h1, h2, h3, h4, -⟩ := cached_all (srtS := srtS) hS fetch ks g
  rw [List.nil_append] at h3
  rw [hc] at h4
  refine ⟨found, (s, n), h1, h2, fun hf => h3.few (by omega), fun hw => ?_⟩
  have hw' : 2 * caps s ≤ (missed ks found).length := by omega
  refine ⟨?_, ?_, ?_⟩
  · rw [← h4]
    exact h3.holds hw'
  · intro ks'
    obtain ⟨found', s', n', g1, -, g3, g4, g5⟩ := cached_all (srtS := srtS) hS fetch ks' h3
    obtain ⟨e1, e2⟩ := g5 hw'
    rw [h4] at e1 e2 g4
    refine ⟨(s', n'), ?_, ?_⟩
    · rw [g1, e1]; rfl
    · have := g3.holds (by rw [g4, List.length_append]; omega)
      rw [g4, e2] at this
      exact this
  · intro m hm
    obtain ⟨out, s', g1, g2, g3⟩ := pop_warm (srtS := srtS) hS h3 hw' m hm
    refine ⟨out.map (strip (fifo V)), (s', n), ?_, g2, ?_⟩
    · show (do let (out, c) ← (batchOf srt srtS).block.pop s m; _ : Res _) = _
      rw [g1]
      rfl
    · rw [List.take_take, Nat.min_eq_left (Nat.sub_le _ _), ← h4]
      exact g3

/-- Before that, `pop` may evict the key missed last: after 1 and 2, 2 goes. -/
theorem C109_pop_newest :
    (do
      let (_, s) ← cachedAll (fifoCells (batchOf fifoSorter fifoSorter)) (fun k : Nat => k * 10)
        ([1, 1].map Array.new, (0 : Nat)) [1, 2]
      let (out, _) ← (fifoOf (batchOf fifoSorter fifoSorter)).block.pop s 1
      return out : Res (List (Nat × Nat))) = .ok [(2, 20)] := by
  decide +kernel

/-- With `Lru` it does not become an LRU cache: of two Arrays of one element, after four misses, 3 is read, then 5 is
missed, and 3 is gone. -/
theorem C109_lru_last_used :
    (do
      let (ans, _) ← cachedAll (lruCells id (Stack.batch (Stack.array (fun _ => 1) lruSorter lruSorter)))
        (fun k : Nat => k * 10) ([1, 1].map Array.new, (0 : Nat)) [1, 2, 3, 4, 3, 5, 3]
      return ans.map Prod.fst : Res (List Bool)) = .ok [false, false, false, false, true, false, false] := by
  decide +kernel

/-! ## Concrete cases -/

/-- Arrays of 2, 0 and 1 elements: seven requests, six misses, twice the total capacity. -/
example : (do
      let (ans, s) ← cachedAll (fifoCells (batchOf fifoSorter fifoSorter)) (fun k : Nat => k * 10)
        ([2, 0, 1].map Array.new, (0 : Nat)) [1, 2, 3, 1, 4, 5, 6]
      let (out, _) ← (fifoOf (batchOf fifoSorter fifoSorter)).block.pop s 2
      return (missed [1, 2, 3, 1, 4, 5, 6] (ans.map Prod.fst), out.map Prod.fst) : Res (List Nat × List Nat)) =
    .ok ([1, 2, 3, 4, 5, 6], [4, 5]) := by
  decide +kernel

end Byoc.BatchCacheProps
