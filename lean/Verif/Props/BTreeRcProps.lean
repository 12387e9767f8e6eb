import Verif.Proofs.BTreeRc
import Verif.Props.BTreeProps

/-!
# C10 for batches of any kind

The model is the one with reference counters (Model/BTreeRc.lean).  Batches may repeat keys and elements.
-/

set_option linter.unusedSectionVars false

namespace Byoc
namespace BTreeRcProps

open BTreeProps

variable {K V : Type} [LinearOrder K] [LinearOrder V]

/-- What is left of a batch when of each key only the last element counts. -/
def counted : Op K V → List (K × V)
  | .push l => lastOfKey l
  | _ => []

/-- `lastOfKey` is what it says: an element is kept iff no later element of the batch has its key. -/
theorem mem_lastOfKey (l : List (K × V)) (e : K × V) :
    e ∈ lastOfKey l ↔ ∃ a b, l = a ++ e :: b ∧ e.1 ∉ b.map Prod.fst := by
  induction l with
  | nil => simp [lastOfKey]
  | cons x l ih =>
    unfold lastOfKey
    constructor
    · intro h
      split at h
      · obtain ⟨a, b, rfl, hb⟩ := ih.1 h
        exact ⟨x :: a, b, rfl, hb⟩
      · rename_i hx
        rcases List.mem_cons.1 h with rfl | h
        · exact ⟨[], l, rfl, hx⟩
        · obtain ⟨a, b, rfl, hb⟩ := ih.1 h
          exact ⟨x :: a, b, rfl, hb⟩
    · rintro ⟨a, b, h, hb⟩
      cases a with
      | nil =>
        cases h
        simp [hb]
      | cons y a =>
        cases h
        have := ih.2 ⟨a, b, rfl, hb⟩
        split
        · exact this
        · exact List.mem_cons_of_mem _ this

theorem step_inv (sz : K × V → Nat) {s s' : RcTree K V} {op : Op K V} {out} (h : RcTree.WInv sz s)
    (hs : (rcBlock sz).step s op = .ok (out, s')) :
    RcTree.WInv sz s' ∧ s'.capacity = s.capacity ∧ (s'.elems ++ out).Perm (s.elems ++ counted op) := by
  cases op with
  | contains k => cases hs; exact ⟨h, rfl, by simp [counted]⟩
  | take k =>
    obtain ⟨o, t', h1, h2, h3, h4, -, -⟩ := RcTree.take_ok sz s k h
    simp only [Block.step, rcBlock, h1, Res.ok_bind] at hs
    cases hs
    exact ⟨h2, h3, by simp only [counted]; perms [h4]⟩
  | takeMultiple ks =>
    obtain ⟨o, t', h1, h2, h3, h4, -⟩ := RcTree.takeMany_ok sz ks s h
    simp only [Block.step, rcBlock, h1, Res.ok_bind] at hs
    cases hs
    exact ⟨h2, h3, by simp only [counted]; perms [h4]⟩
  | pop n =>
    obtain ⟨h1, h2, h3⟩ := RcTree.pop_ok sz s n h hs
    exact ⟨h1, h2, by simpa [counted] using h3⟩
  | push l => exact RcTree.push_ok sz s l h hs
  | flush =>
    cases hs
    exact ⟨RcTree.flush_inv sz s, rfl, by simp [counted, RcTree.elems]⟩

theorem run_inv (sz : K × V → Nat) : ∀ (ops : List (Op K V)) {s s' : RcTree K V} {out},
    RcTree.WInv sz s → (rcBlock sz).run s ops = .ok (out, s') →
    RcTree.WInv sz s' ∧ s'.capacity = s.capacity ∧ (s'.elems ++ out).Perm (s.elems ++ ops.flatMap counted) := by
  intro ops
  induction ops with
  | nil =>
    intro s s' out h hs
    cases hs
    exact ⟨h, rfl, by simp⟩
  | cons op ops ih =>
    intro s s' out h hs
    simp only [Block.run] at hs
    cases h1 : (rcBlock sz).step s op with
    | panic => rw [h1] at hs; cases hs
    | ok y =>
      obtain ⟨o1, s1⟩ := y
      rw [h1] at hs
      simp only [Res.ok_bind] at hs
      cases h2 : (rcBlock sz).run s1 ops with
      | panic => rw [h2] at hs; cases hs
      | ok z =>
        obtain ⟨o2, s2⟩ := z
        rw [h2] at hs
        cases hs
        obtain ⟨a1, a2, a3⟩ := step_inv sz h h1
        obtain ⟨b1, b2, b3⟩ := ih a1 h2
        refine ⟨b1, b2.trans a2, ?_⟩
        rw [List.flatMap_cons]
        perms [a3, b3]

theorem total_subperm' {E : Type} (sz : E → Nat) {l l' : List E} (h : l.Subperm l') : total sz l ≤ total sz l' := by
  obtain ⟨m, hp, hs⟩ := h
  rw [← total_perm sz hp]
  clear hp
  induction hs with
  | slnil => simp
  | cons a _ ih => simp only [total_cons]; omega
  | cons_cons a _ ih => simp only [total_cons]; omega

/-- **C10**, what holds for any batches.  After any history during which no call panicked:
* what is stored and what was handed back is exactly what was pushed, less the elements followed by one with
  the same key in their batch: nothing else is lost, nothing is invented or duplicated;
* a key is stored at most once, and `size()` is at least what is stored;
* `contains`, `take`, `take_multiple`, `flush`, and `pop` of at least `size()`, do not panic. -/
theorem C10_any_partial (sz : K × V → Nat) (n : Nat) (ops : List (Op K V)) {out : List (K × V)} {s : RcTree K V}
    (h : (rcBlock sz).run (RcTree.new n) ops = .ok (out, s)) :
    ((rcBlock sz).contents s ++ out).Perm (ops.flatMap counted) ∧
    (((rcBlock sz).contents s).map Prod.fst).Nodup ∧
    total sz ((rcBlock sz).contents s) ≤ (rcBlock sz).size s ∧
    (rcBlock sz).capacity s = n ∧
    (∀ k, ∃ b, (rcBlock sz).contains s k = .ok (b, s) ∧ (b = true ↔ HasKey ((rcBlock sz).contents s) k)) ∧
    (∀ k, ∃ o s', (rcBlock sz).take s k = .ok (o, s') ∧ ∀ e, o = some e ↔ e ∈ (rcBlock sz).contents s ∧ e.1 = k) ∧
    (∀ ks, ∃ r, (rcBlock sz).takeMultiple s ks = .ok r) ∧
    (∀ m, (rcBlock sz).size s ≤ m → ∃ r, (rcBlock sz).pop s m = .ok r) ∧
    ∃ r, (rcBlock sz).flush s = .ok r := by
  obtain ⟨h1, h2, h3⟩ := run_inv sz ops (RcTree.new_inv sz n) h
  have hnd : (s.elems.map Prod.fst).Nodup := by
    have := h1.nodup
    simpa [RcTree.elems, Function.comp_def] using this
  have hemp : (RcTree.new n : RcTree K V).elems = [] := rfl
  rw [hemp, List.nil_append] at h3
  refine ⟨h3, hnd, ?_, h2, ?_, ?_, ?_, ?_, ⟨_, rfl⟩⟩
  · show total sz s.elems ≤ s.totalSize
    have hz := h1.size
    have hsub : (s.map.map RcTree.pr).Subperm s.set := by
      refine List.subperm_of_subset ?_ ?_
      · have := h1.nodup
        have e : s.map.map Prod.fst = (s.map.map RcTree.pr).map Prod.snd := by
          rw [List.map_map]; rfl
        rw [e] at this
        exact this.of_map
      · intro x hx
        obtain ⟨e, he, rfl⟩ := List.mem_map.1 hx
        exact h1.pairs e he
    have e1 : total sz s.elems = total (fun e : V × K => sz (e.2, e.1)) (s.map.map RcTree.pr) := by
      simp [total, RcTree.elems, RcTree.pr, Function.comp_def]
    have e2 := total_subperm' (fun e : V × K => sz (e.2, e.1)) hsub
    omega
  · intro k
    refine ⟨s.contains k, rfl, ?_⟩
    show s.contains k = true ↔ HasKey s.elems k
    simp [RcTree.contains, HasKey, RcTree.elems]
  · intro k
    obtain ⟨o, t', g1, g2, g3, g4, g5, g6⟩ := RcTree.take_ok sz s k h1
    refine ⟨o, t', g1, fun e => ⟨?_, ?_⟩⟩
    · rintro rfl
      exact ⟨g4.mem_iff.1 (by simp), g5 e rfl⟩
    · rintro ⟨he, hk⟩
      have := g4.mem_iff.2 he
      rcases List.mem_append.1 this with g | g
      · simpa using g
      · exact absurd hk (g6 e g)
  · intro ks
    obtain ⟨o, t', g1, -⟩ := RcTree.takeMany_ok sz ks s h1
    exact ⟨(o, ks, t'), by simp only [rcBlock, g1, Res.ok_bind, Res.pure_eq]⟩
  · intro m hm
    have hm' : s.totalSize ≤ m := hm
    by_cases hv : s.map = []
    · exact ⟨([], s), by simp [rcBlock, RcTree.pop, hv]⟩
    · exact ⟨s.flush, by simp [rcBlock, RcTree.pop, hv, hm']⟩

/-- **C10** without repeated keys: every call returns, with the same results as the model without counters (so that C07 – C09 hold
of this one). -/
theorem C10_distinct_partial (sz : K × V → Nat) (n : Nat) (ops : List (Op K V)) (h : DistinctBatches ops) :
    ∃ rs t, (btreeBlock sz).observes (BTree.new n) ops = .ok (rs, t) ∧
      (rcBlock sz).observes (RcTree.new n) ops = .ok (rs, RcTree.lift t) ∧
      (rcBlock sz).contents (RcTree.lift t) = (btreeBlock sz).contents t ∧
      (rcBlock sz).size (RcTree.lift t) = (btreeBlock sz).size t := by
  have key : ∀ (ops : List (Op K V)) (t : BTree K V), DistinctBatches ops → BTree.Inv sz t →
      ∃ rs t', (btreeBlock sz).observes t ops = .ok (rs, t') ∧
        (rcBlock sz).observes (RcTree.lift t) ops = .ok (rs, RcTree.lift t') := by
    intro ops
    induction ops with
    | nil => intro t _ _; exact ⟨[], t, rfl, rfl⟩
    | cons op ops ih =>
      intro t hd hi
      have hop := hd.ok op List.mem_cons_self
      obtain ⟨out, t1, a1, a2⟩ := (BTree.lawful sz).step (s := t) hi op hop
      replace a1 := (Block.step_eq_observe (btreeBlock sz) t op).symm.trans a1
      cases ho : (btreeBlock sz).observe t op with
      | panic => rw [ho] at a1; cases a1
      | ok y =>
        obtain ⟨r, t2⟩ := y
        rw [ho] at a1
        cases a1
        obtain ⟨rs, t3, b1, b2⟩ := ih t1 (fun l hl => hd l (List.mem_cons_of_mem _ hl)) a2.1
        refine ⟨r :: rs, t3, by simp only [Block.observes, ho, Res.ok_bind, b1, Res.pure_eq], ?_⟩
        simp only [Block.observes, RcTree.lift_observe sz t hi op hop, ho, Res.ok_bind, Res.pure_eq]
        show (do let x ← (rcBlock sz).observes (RcTree.lift t1) ops; Res.ok (r :: x.1, x.2) : Res _) = _
        rw [b2]
        rfl
  obtain ⟨rs, t, h1, h2⟩ := key ops (BTree.new n) h (BTree.new_inv sz n)
  exact ⟨rs, t, h1, h2, RcTree.lift_elems t, rfl⟩

/-! ## What does not hold -/

/-- The full statement: any history returns and loses nothing. -/
def C10_rc_full : Prop :=
  ∀ (n : Nat) (ops : List (Op Nat Nat)), ∃ out s,
    (rcBlock fun _ => 1).run (RcTree.new n) ops = .ok (out, s) ∧
      ((rcBlock fun _ => 1).contents s ++ out).Perm (ops.flatMap Op.given)

/-- A later pop panics. -/
theorem C10_pop_panics : (rcBlock fun _ : Nat × Nat => 1).run (RcTree.new 3) [.push [(1, 2), (1, 1)], .pop 1] = .panic := rfl

theorem C10_rc_false : ¬ C10_rc_full := by
  intro h
  obtain ⟨out, s, h1, -⟩ := h 3 [.push [(1, 2), (1, 1)], .pop 1]
  rw [C10_pop_panics] at h1
  cases h1

/-- `size()` exceeds the capacity, and the next push panics. -/
theorem C10_overfull : ∃ out s, (rcBlock fun _ : Nat × Nat => 1).run (RcTree.new 5)
      [.push (List.replicate 4 (1, 1)), .push (List.replicate 4 (2, 2))] = .ok (out, s) ∧
      (rcBlock fun _ : Nat × Nat => 1).size s = 7 ∧ (rcBlock fun _ : Nat × Nat => 1).capacity s = 5 ∧
      (rcBlock fun _ : Nat × Nat => 1).contents s = [(2, 2)] ∧
      (rcBlock fun _ : Nat × Nat => 1).push s [(3, 3)] = .panic := ⟨_, _, rfl, rfl, rfl, rfl, rfl⟩

/-- `pop` evicts the least element instead of the greatest. -/
theorem C10_wrong_victim : ∃ s s', (rcBlock fun _ : Nat × Nat => 1).run (RcTree.new 9)
      [.push [(1, 5), (1, 0), (1, 0), (2, 3)]] = .ok ([], s) ∧
      (rcBlock fun _ : Nat × Nat => 1).contents s = [(1, 0), (2, 3)] ∧
      (rcBlock fun _ : Nat × Nat => 1).pop s 1 = .ok ([(1, 0)], s') := ⟨_, _, rfl, rfl, rfl⟩

/-! ## Non-vacuity -/

/-- A history with repeated keys and elements that does not panic and exercises every call. -/
def anyOps : List (Op Nat Nat) :=
  [.push [(1, 5), (1, 0), (1, 0), (2, 3)], .contains 1, .pop 1, .push [(3, 1), (3, 1)], .take 2, .takeMultiple [3, 4],
   .push [(4, 4), (5, 5), (4, 6)]]

example : ∃ s, (rcBlock fun _ : Nat × Nat => 1).run (RcTree.new 20) anyOps = .ok ([(1, 0), (2, 3), (3, 1)], s) ∧
    (rcBlock fun _ : Nat × Nat => 1).contents s = [(4, 6), (5, 5)] ∧ (rcBlock fun _ : Nat × Nat => 1).size s = 6 :=
  ⟨_, rfl, rfl, rfl⟩

example : DistinctBatches demoOps := by
  intro l hl
  simp only [demoOps, List.mem_cons, Op.push.injEq, List.not_mem_nil, or_false] at hl
  rcases hl with rfl | rfl | rfl <;> decide

end BTreeRcProps
end Byoc
