import Verif.Proofs.Machine
import Verif.Props.StackProps
import Verif.Proofs.PopOk

/-! # C98: 64 bit machine words, debug and release profiles -/

namespace Byoc

/-! ## Specification -/

/-- What the caller sees when `capacity()` and `size()` are called after every call of a history. -/
def Block.watch {K V : Type} (B : Block K V) (s : B.State) :
    List (Op K V) → Res (List (Obs K V × Nat × Nat) × B.State)
  | [] => .ok ([], s)
  | op :: ops => do
    let (r, s') ← B.observe s op
    let (rs, s'') ← B.watch s' ops
    pure ((r, B.capacity s', B.size s') :: rs, s'')

/-- The same on machine words: one call. -/
def WBlock.observe {K V S : Type} (W : WBlock K V S) (s : S) : Op K V → Res (Obs K V × S)
  | .contains k => do let (b, s') ← W.contains s k; pure (.bool b, s')
  | .take k => do let (o, s') ← W.take s k; pure (.opt o, s')
  | .takeMultiple ks => do let (out, ks', s') ← W.takeMultiple s ks; pure (.keyed out ks', s')
  | .pop n => do let (out, s') ← W.pop s n; pure (.many out, s')
  | .push l => do let (out, s') ← W.push s l; pure (.many out, s')
  | .flush => do let (out, s') ← W.flush s; pure (.many out, s')

/-- The same on machine words: a history, with `capacity()` and `size()` called after every call. -/
def WBlock.watch {K V S : Type} (W : WBlock K V S) (s : S) :
    List (Op K V) → Res (List (Obs K V × Nat × Nat) × S)
  | [] => .ok ([], s)
  | op :: ops => do
    let (r, s') ← W.observe s op
    let c ← W.capacity s'
    let n ← W.size s'
    let (rs, s'') ← W.watch s' ops
    pure ((r, c, n) :: rs, s'')

/-- The two profiles of the compiler. -/
def Arith.Profile (ar : Arith) : Prop := ar = .checked ∨ ar = .wrapping

theorem Arith.Profile.law {ar : Arith} (h : ar.Profile) : ar.Law := by
  rcases h with rfl | rfl
  · exact checked_law
  · exact wrapping_law

variable {K V : Type}

/-- At every moment of the history, what is stored together with what is pushed is small. -/
def Block.StaysSmall (B : Block K V) (elems : B.State → List (K × V)) (Small : List (K × V) → Prop) (s : B.State)
    (ops : List (Op K V)) : Prop :=
  ∀ ops₁ op ops₂ out s₁, ops = ops₁ ++ op :: ops₂ → B.run s ops₁ = .ok (out, s₁) → Small (elems s₁ ++ op.given)

theorem Fits.observe {B : Block K V} {W : WBlock K V B.State} {I e S P p} (h : Fits B W I e S P p)
    (s : B.State) (hs : I s) (hc : B.capacity s < word) (op : Op K V) (hm : op.Machine) (hP : op.Ok P)
    (hp : p ∨ op.NotPop) (hS : S (e s ++ op.given)) : W.observe s op = B.observe s op := by
  cases op with
  | contains k => simp only [WBlock.observe, Block.observe, h.contains s k hs hc]
  | take k => simp only [WBlock.observe, Block.observe, h.take s k hs hc]
  | takeMultiple ks => simp only [WBlock.observe, Block.observe, h.takeMultiple s ks hs hc hm]
  | pop n =>
    rcases hp with hp | hp
    · simp only [WBlock.observe, Block.observe, h.pop hp s n hs hc hm]
    · exact hp.elim
  | push l => simp only [WBlock.observe, Block.observe, h.push s l hs hc hP hS]
  | flush => simp only [WBlock.observe, Block.observe, h.flush s hs hc (by simpa [Op.given] using hS)]

theorem Fits.watch {B : Block K V} {W : WBlock K V B.State} {I e S P p} (h : Fits B W I e S P p)
    (c : Core B I e P) (l : p → Lawful B I e P) : ∀ (ops : List (Op K V)) (s : B.State), I s → B.capacity s < word →
    (∀ op ∈ ops, op.Machine ∧ op.Ok P ∧ (p ∨ op.NotPop)) → B.StaysSmall e S s ops →
    ∃ seen s', W.watch s ops = .ok (seen, s') ∧ B.watch s ops = .ok (seen, s')
  | [], s, _, _, _, _ => ⟨[], s, rfl, rfl⟩
  | op :: ops, s, hs, hc, hops, hS => by
    obtain ⟨o1, o2, o3⟩ := hops op (by simp)
    have hobs := h.observe s hs hc op o1 o2 o3 (hS [] op ops [] s rfl rfl)
    have hstep : ∃ out s', B.step s op = .ok (out, s') ∧ I s' ∧ B.capacity s' = B.capacity s := by
      rcases o3 with o3 | o3
      · obtain ⟨out, s', g1, g2, g3, -⟩ := (l o3).step s hs op o2
        exact ⟨out, s', g1, g2, g3⟩
      · obtain ⟨out, s', g1, g2, g3, -⟩ := c.step s hs op o2 o3
        exact ⟨out, s', g1, g2, g3⟩
    obtain ⟨out, s', g1, g2, g3⟩ := hstep
    cases hb : B.observe s op with
    | panic => rw [B.step_eq_observe, hb] at g1; simp at g1
    | ok r =>
      obtain ⟨r, s''⟩ := r
      have : s'' = s' := by
        rw [B.step_eq_observe, hb] at g1
        simp only [Res.ok_bind, Res.pure_eq, Res.ok.injEq, Prod.mk.injEq] at g1
        exact g1.2
      subst this
      have hc' : B.capacity s'' < word := by omega
      obtain ⟨seen, t, i1, i2⟩ := h.watch c l ops s'' g2 hc' (fun o ho => hops o (by simp [ho])) (by
        intro ops₁ o ops₂ out' s₁ e1 e2
        refine hS (op :: ops₁) o ops₂ (out ++ out') s₁ (by simp [e1]) ?_
        simp only [Block.run, g1, Res.ok_bind, e2, Res.pure_eq])
      exact ⟨(r, B.capacity s'', B.size s'') :: seen, t, by simp only [WBlock.watch, hobs, hb, Res.ok_bind, h.capacity s'' g2 hc', h.size s'' g2 hc', i1, Res.pure_eq],
        by simp only [Block.watch, hb, Res.ok_bind, i2, Res.pure_eq]⟩

namespace MachineProps

section
variable [LinearOrder K]

/-- **C98 (full statement).** In both profiles of a 64 bit machine, whatever is called on a container whose
capacity is a machine word, the caller sees what the unbounded model says. -/
def C98_machine_full (ar : Arith) (t : Stack K V) : Prop :=
  ∀ (s : t.block.State), t.Init s → t.block.capacity s < word → ∀ ops : List (Op K V),
    (∀ op ∈ ops, op.Machine) → ∃ seen s', (t.wblock ar).watch s ops = .ok (seen, s') ∧ t.block.watch s ops = .ok (seen, s')

/-- **C98.** … as long as the sizes of what is stored and what is being pushed add up to a machine word. -/
theorem C98_machine_partial {ar : Arith} (ha : ar.Profile) (t : Stack K V) (hw : t.WF) (s : t.block.State)
    (hi : t.Init s) (hc : t.block.capacity s < word) (ops : List (Op K V))
    (hm : ∀ op ∈ ops, op.Machine ∧ (t.NoAssociative ∨ op.NotPop)) (hS : t.block.StaysSmall t.elems t.Small s ops) :
    ∃ seen s', (t.wblock ar).watch s ops = .ok (seen, s') ∧ t.block.watch s ops = .ok (seen, s') :=
  (t.fits ha.law hw).watch (t.core False hw) (t.lawful False hw) ops s (t.init_inv False s hi fun h => h.elim) hc
    (fun op ho => ⟨(hm op ho).1, ArrayProps.okTrue op, (hm op ho).2⟩) hS

/-- **C98 (all the elements ever pushed).** It is enough that the sizes of all the elements of the history add up
to a machine word. -/
theorem C98_total_partial {ar : Arith} (ha : ar.Profile) (t : Stack K V) (hw : t.WF) (s : t.block.State)
    (hi : t.Init s) (hc : t.block.capacity s < word) (ops : List (Op K V))
    (hm : ∀ op ∈ ops, op.Machine ∧ (t.NoAssociative ∨ op.NotPop)) (hS : t.Small (ops.flatMap Op.given)) :
    ∃ seen s', (t.wblock ar).watch s ops = .ok (seen, s') ∧ t.block.watch s ops = .ok (seen, s') := by
  refine C98_machine_partial ha t hw s hi hc ops hm ?_
  intro ops₁ op ops₂ out s₁ e1 e2
  have hp := (StackProps.C47_stack_history_returns t hw s hi ops₁ out s₁ e2).2.2
  refine (t.fits ha.law hw).mono _ _ (subperm_of_count fun _ a => ?_) hS
  have := hp.count_eq a
  subst e1
  simp only [List.flatMap_append, List.flatMap_cons, List.count_append] at this ⊢
  omega

omit [LinearOrder K] in
theorem _root_.Byoc.Block.watch_contract {B : Block K V} {I e P p} (c : Core B I e P) (l : p → Lawful B I e P) :
    ∀ (ops : List (Op K V)) (s : B.State) (seen : List (Obs K V × Nat × Nat)) (s' : B.State), I s →
    (∀ op ∈ ops, op.Ok P ∧ (p ∨ op.NotPop)) → B.watch s ops = .ok (seen, s') →
    (∀ x ∈ seen, x.2.1 = B.capacity s ∧ x.2.2 ≤ B.capacity s) ∧
      (e s' ++ seen.flatMap (fun x => x.1.elements)).Perm (e s ++ ops.flatMap Op.given)
  | [], s, seen, s', _, _, h => by
    simp only [Block.watch, Res.ok.injEq, Prod.mk.injEq] at h
    obtain ⟨rfl, rfl⟩ := h
    simp
  | op :: ops, s, seen, s', hs, hops, h => by
    obtain ⟨o2, o3⟩ := hops op (by simp)
    have hstep : ∃ out s', B.step s op = .ok (out, s') ∧ I s' ∧ B.capacity s' = B.capacity s ∧
        (e s' ++ out).Perm (e s ++ op.given) := by
      rcases o3 with o3 | o3
      · exact (l o3).step s hs op o2
      · exact c.step s hs op o2 o3
    obtain ⟨out, s1, g1, g2, g3, g4⟩ := hstep
    rw [B.step_eq_observe] at g1
    cases hb : B.observe s op with
    | panic => rw [hb] at g1; simp at g1
    | ok r =>
      obtain ⟨r, s2⟩ := r
      rw [hb] at g1
      simp only [Res.ok_bind, Res.pure_eq, Res.ok.injEq, Prod.mk.injEq] at g1
      obtain ⟨rfl, rfl⟩ := g1
      cases hr : B.watch s2 ops with
      | panic => simp only [Block.watch, hb, Res.ok_bind, hr, Res.panic_bind] at h; cases h
      | ok q =>
        obtain ⟨rs, s3⟩ := q
        simp only [Block.watch, hb, Res.ok_bind, hr, Res.pure_eq, Res.ok.injEq, Prod.mk.injEq] at h
        obtain ⟨rfl, rfl⟩ := h
        obtain ⟨i1, i2⟩ := Block.watch_contract c l ops s2 rs s3 g2 (fun o ho => hops o (by simp [ho])) hr
        refine ⟨?_, ?_⟩
        · intro x hx
          rcases List.mem_cons.1 hx with rfl | hx
          · exact ⟨g3, g3 ▸ c.bounded s2 g2⟩
          · exact g3 ▸ i1 x hx
        · simp only [List.flatMap_cons]
          perms [i2, g4]

/-- **C98 (the contract on the machine).** Under these conditions no call panics, in either profile; `capacity()`
is constant and `size()` within it after every call; and the elements pushed are exactly those handed back and
those still in the container. -/
theorem C98_contract_partial {ar : Arith} (ha : ar.Profile) (t : Stack K V) (hw : t.WF) (s : t.block.State)
    (hi : t.Init s) (hc : t.block.capacity s < word) (ops : List (Op K V))
    (hm : ∀ op ∈ ops, op.Machine ∧ (t.NoAssociative ∨ op.NotPop)) (hS : t.Small (ops.flatMap Op.given)) :
    ∃ seen s', (t.wblock ar).watch s ops = .ok (seen, s') ∧
      (∀ x ∈ seen, x.2.1 = t.block.capacity s ∧ x.2.2 ≤ t.block.capacity s) ∧
      (t.elems s' ++ seen.flatMap (fun x => x.1.elements)).Perm (ops.flatMap Op.given) := by
  obtain ⟨seen, s', h1, h2⟩ := C98_total_partial ha t hw s hi hc ops hm hS
  obtain ⟨h3, h4⟩ := Block.watch_contract (t.core False hw) (t.lawful False hw) ops s seen s'
    (t.init_inv False s hi fun h => h.elim) (fun op ho => ⟨ArrayProps.okTrue op, (hm op ho).2⟩) h2
  rw [t.init_elems s hi] at h4
  exact ⟨seen, s', h1, h3, by simpa using h4⟩

/-- **C98 (BTree).** A new `BTree`, batches without repeated keys: the same. -/
theorem C98_btree_partial [LinearOrder V] {ar : Arith} (ha : ar.Profile) (sz : K × V → Nat) (n : Nat) (hn : n < word)
    (ops : List (Op K V)) (hm : ∀ op ∈ ops, op.Machine ∧ op.Ok (fun l => (l.map Prod.fst).Nodup))
    (hS : total sz (ops.flatMap Op.given) < word) :
    ∃ seen s', (wbtree ar sz).watch (BTree.new n) ops = .ok (seen, s') ∧
      (btreeBlock sz).watch (BTree.new n) ops = .ok (seen, s') := by
  have L := BTree.lawful (K := K) (V := V) sz
  refine (wbtree_fits ha.law sz).watch L.toCore (fun _ => L) ops (BTree.new n) (BTree.new_inv sz n) hn
    (fun op ho => ⟨(hm op ho).1, (hm op ho).2, Or.inl trivial⟩) ?_
  intro ops₁ op ops₂ out s₁ e1 e2
  subst e1
  obtain ⟨out', s', g1, -, -, -, g5⟩ := L.run ops₁ (fun o ho => (hm o (by simp [ho])).2) (BTree.new n) (BTree.new_inv sz n)
  rw [e2] at g1
  simp only [Res.ok.injEq, Prod.mk.injEq] at g1
  obtain ⟨rfl, rfl⟩ := g1
  have := total_perm sz g5
  simp only [List.flatMap_append, List.flatMap_cons, total_append, BTree.new, total_nil] at this hS ⊢
  omega

/-- **C98 (`pop` of `Associative`).** In every state of an `Associative` (over anything without another one), `pop`
does on the machine what it does in the model, including the panics of C20, which are therefore not limited to the
debug profile. -/
theorem C98_associative_pop_partial {ar : Arith} (ha : ar.Profile) (hash : K → Nat) (c : Stack K V) (hw : c.WF)
    (hn : c.NoAssociative) (s₀ s : List c.block.State) (hi : (Stack.associative hash c).Init s₀)
    (ops : List (Op K V)) (out : List (K × V)) (hr : (Stack.associative hash c).block.run s₀ ops = .ok (out, s))
    (hc : (Stack.associative hash c).block.capacity s₀ < word) (hl : s.length < word)
    (hS : c.Small (ops.flatMap Op.given)) (n : Nat) :
    ((Stack.associative hash c).wblock ar).pop s n = (Stack.associative hash c).block.pop s n := by
  have hcore := (Stack.associative hash c).core False hw
  obtain ⟨h1, h2, h3⟩ := hcore.run_ok ((Stack.associative hash c).popOk False hw) ops
    (fun op _ => ArrayProps.okTrue op) s₀ out s ((Stack.associative hash c).init_inv False s₀ hi fun h => h.elim) hr
  rw [(Stack.associative hash c).init_elems s₀ hi] at h3
  have hI : Associative.Inv hash (c.Inv False) c.elems s := h1
  have hp : (batchElems c.elems s ++ out).Perm (ops.flatMap Op.given) := by rw [List.nil_append] at h3; exact h3
  have F := c.fits ha.law hw
  refine Associative.popW_eq ha.law (c.core False hw) F hn (fun x m o x' hx he => ?_) s hI.2.inv ?_ hl
    (F.mono _ _ ((List.sublist_append_left _ _).subperm.trans hp.subperm) hS) n
  · obtain ⟨a, b, -⟩ := c.popOk False hw x m o x' hx he
    exact ⟨a, b⟩
  · exact Nat.lt_of_le_of_lt h2.le hc

end

/-! ## Two elements of size `2 ^ 63` in one batch -/

/-- An Array of capacity 10 for elements of size `2 ^ 63`. -/
def huge : Stack Nat Nat := .array (fun _ => 2 ^ 63) (Sorter.ofLe (fun a b => a.2 ≤ b.2)) (Sorter.ofLe (fun a b => a.2 ≤ b.2))

/-- **C98 is false (debug profile).** The sum of the sizes of a batch overflows: `push` panics, though the batch
could be handed back. -/
theorem C98_debug_panics_false :
    (huge.wblock .checked).push (Array.new 10) [(0, 0), (1, 0)] = .panic ∧
    (huge.block.push (Array.new 10) [(0, 0), (1, 0)]) =
      .ok ([(0, 0), (1, 0)], { capacity := 10, totalSize := 0, values := [] }) := by
  constructor <;> rfl

/-- **C98 is false (release profile).** The sum of the sizes of a batch wraps to 0: both elements are stored in a
container of capacity 10, whose `size()` is then 0. -/
theorem C98_release_overfull_false :
    (huge.wblock .wrapping).push (Array.new 10) [(0, 0), (1, 0)] =
      .ok ([], { capacity := 10, totalSize := 0, values := [(0, 0), (1, 0)] }) := by
  rfl

theorem C98_machine_false (ar : Arith) (ha : ar.Profile) : ¬ C98_machine_full ar huge := by
  intro h
  obtain ⟨seen, s', h1, h2⟩ := h (Array.new 10) ⟨10, rfl⟩ (by decide +kernel) [.push [(0, 0), (1, 0)]]
    (by intro op ho; simp only [List.mem_singleton] at ho; subst ho; trivial)
  have e2 : huge.block.watch (Array.new 10) [.push [(0, 0), (1, 0)]] =
      .ok ([(.many [(0, 0), (1, 0)], 10, 0)], { capacity := 10, totalSize := 0, values := [] }) := rfl
  rw [e2] at h2
  rcases ha with rfl | rfl
  · have e1 : (huge.wblock .checked).watch (Array.new 10) [.push [(0, 0), (1, 0)]] = .panic := rfl
    rw [e1] at h1
    cases h1
  · have e1 : (huge.wblock .wrapping).watch (Array.new 10) [.push [(0, 0), (1, 0)]] =
      .ok ([(.many [], 10, 0)], { capacity := 10, totalSize := 0, values := [(0, 0), (1, 0)] }) := rfl
    rw [e1] at h1
    injection h1 with h1
    injection h2 with h2
    have h3 := (congrArg Prod.fst h1).trans (congrArg Prod.fst h2).symm
    simp at h3

/-- **C98 (capacities).** Two Arrays of capacity `2 ^ 63`, one behind the other: `capacity()` panics in debug and
is 0 in release. -/
theorem C98_capacity_false :
    ((Stack.exclusive huge huge).wblock .checked).capacity ((Array.new (2 ^ 63), Array.new (2 ^ 63)) : Array Nat Nat × Array Nat Nat) = .panic ∧
    ((Stack.exclusive huge huge).wblock .wrapping).capacity ((Array.new (2 ^ 63), Array.new (2 ^ 63)) : Array Nat Nat × Array Nat Nat) = .ok 0 := by
  constructor <;> rfl

/-! ## The hypotheses can be met -/

/-- Elements of size 3 in two Arrays of capacity 4 and `2 ^ 63`: pushes, evictions to the back, a pop, a flush. -/
example : ∃ seen s', ((Stack.exclusive (V := Nat) (.array (fun _ => 3) (Sorter.ofLe (fun a b => a.2 ≤ b.2)) (Sorter.ofLe (fun a b => a.2 ≤ b.2)))
      (.array (fun _ => 3) (Sorter.ofLe (fun a b => a.2 ≤ b.2)) (Sorter.ofLe (fun a b => a.2 ≤ b.2)))).wblock (K := Nat) .wrapping).watch
      ((Array.new 4, Array.new (2 ^ 63)) : Array Nat Nat × Array Nat Nat)
      [.push [(0, 5), (1, 6)], .push [(2, 7)], .pop 4, .flush] = .ok (seen, s') ∧
      (∀ x ∈ seen, x.2.1 = 2 ^ 63 + 4 ∧ x.2.2 ≤ 2 ^ 63 + 4) := by
  obtain ⟨seen, s', h1, h2, -⟩ := C98_contract_partial (K := Nat) (ar := .wrapping) (Or.inr rfl)
    (Stack.exclusive (V := Nat) (.array (fun _ => 3) (Sorter.ofLe (fun a b => a.2 ≤ b.2)) (Sorter.ofLe (fun a b => a.2 ≤ b.2)))
      (.array (fun _ => 3) (Sorter.ofLe (fun a b => a.2 ≤ b.2)) (Sorter.ofLe (fun a b => a.2 ≤ b.2))))
    ⟨trivial, trivial⟩ ((Array.new 4, Array.new (2 ^ 63)) : Array Nat Nat × Array Nat Nat) ⟨⟨_, rfl⟩, ⟨_, rfl⟩⟩
    (by decide +kernel) [.push [(0, 5), (1, 6)], .push [(2, 7)], .pop 4, .flush]
    (by
      intro op ho
      simp only [List.mem_cons, List.not_mem_nil, or_false] at ho
      rcases ho with rfl | rfl | rfl | rfl
      · exact ⟨trivial, Or.inl ⟨trivial, trivial⟩⟩
      · exact ⟨trivial, Or.inl ⟨trivial, trivial⟩⟩
      · exact ⟨by unfold Op.Machine; decide +kernel, Or.inl ⟨trivial, trivial⟩⟩
      · exact ⟨trivial, Or.inl ⟨trivial, trivial⟩⟩)
    ⟨by unfold Stack.Small; decide +kernel, by unfold Stack.Small; decide +kernel⟩
  exact ⟨seen, s', h1, fun x hx => ⟨(h2 x hx).1.trans (by rfl), (h2 x hx).2.trans (by decide +kernel)⟩⟩

/-- An Array counting its elements. -/
def counting : Stack Nat Nat :=
  .array (fun _ => 1) (Sorter.ofLe (fun a b => a.2 ≤ b.2)) (Sorter.ofLe (fun a b => a.2 ≤ b.2))

/-- The panic of C20 (two sets of two elements, `pop(1)`), in both profiles. -/
example (ar : Arith) (ha : ar.Profile) (s : List counting.block.State)
    (hs : s = ([{ capacity := 2, totalSize := 2, values := [(0, 5), (2, 6)] },
        { capacity := 2, totalSize := 2, values := [(1, 5), (3, 6)] }] : List (Array Nat Nat))) :
    ((Stack.associative id counting).wblock ar).pop s 1 = .panic := by
  refine (C98_associative_pop_partial ha id counting trivial trivial ([Array.new 2, Array.new 2] : List (Array Nat Nat)) s
    ⟨by simp, by intro x hx; exact ⟨2, by rcases List.mem_cons.1 hx with h | h; exact h; exact List.mem_singleton.1 h⟩⟩
    [.push [(0, 5), (2, 6), (1, 5), (3, 6)]] [] (by rw [hs]; rfl)
    (by decide +kernel) (by rw [hs]; decide) (by unfold counting Stack.Small; decide +kernel) 1).trans ?_
  rw [hs]
  rfl

end MachineProps
end Byoc
