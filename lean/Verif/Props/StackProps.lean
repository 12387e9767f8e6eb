import Verif.Proofs.Stack
import Verif.Proofs.PopOk
import Verif.Props.ArrayProps

/-! # C47 – C49, C53: stacks of any shape; `get_mut` then read; `take_multiple` against `take` -/

namespace Byoc
namespace StackProps

open ArrayProps

variable {K V : Type}

section
variable [LinearOrder K]

/-- **C47.** A container assembled to any depth from `Array`, `Exclusive`, `Batch`, `FlushStopper`,
`Decorator`, `Profiler`, dynamic wrappers and (single-threaded) `Sequential`: whatever is called on
it, nothing panics, the capacity is constant, the size is within it, and the elements pushed are
exactly those handed back and those still in its Arrays. -/
theorem C47_stack_history (t : Stack K V) (hw : t.WF) (hn : t.NoAssociative) (s : t.block.State)
    (hi : t.Init s) (ops : List (Op K V)) :
    ∃ out s', t.block.run s ops = .ok (out, s') ∧
      t.block.capacity s' = t.block.capacity s ∧ t.block.size s' ≤ t.block.capacity s ∧
      (t.elems s' ++ out).Perm (ops.flatMap Op.given) := by
  obtain ⟨out, s', h1, -, h3, h4, h5⟩ := (t.lawful False hw hn).run ops (fun op _ => okTrue op) s
    (t.init_inv False s hi fun h => h.elim)
  rw [t.init_elems s hi] at h5
  exact ⟨out, s', h1, h4, h3.trans h4.le, by simpa using h5⟩

/-- **C47 (with `Associative`).** The same for shapes containing `Associative`, for histories without
`pop`. -/
theorem C47_stack_history_associative (t : Stack K V) (hw : t.WF) (s : t.block.State)
    (hi : t.Init s) (ops : List (Op K V)) (hops : ∀ op ∈ ops, op.NotPop) :
    ∃ out s', t.block.run s ops = .ok (out, s') ∧
      t.block.capacity s' = t.block.capacity s ∧ t.block.size s' ≤ t.block.capacity s ∧
      (t.elems s' ++ out).Perm (ops.flatMap Op.given) := by
  obtain ⟨out, s', h1, -, h3, h4, h5⟩ := (t.core False hw).run ops
    (fun op ho => ⟨okTrue op, hops op ho⟩) s (t.init_inv False s hi fun h => h.elim)
  rw [t.init_elems s hi] at h5
  exact ⟨out, s', h1, h4, h3.trans h4.le, by simpa using h5⟩

/-- **C47 (with `Associative`, `pop` included).** Whatever the shape, a history that returned (no call
panicked; only `pop` can, by the theorem above) kept the capacity, is within it and conserved the
elements. -/
theorem C47_stack_history_returns (t : Stack K V) (hw : t.WF) (s : t.block.State) (hi : t.Init s)
    (ops : List (Op K V)) (out : List (K × V)) (s' : t.block.State)
    (hr : t.block.run s ops = .ok (out, s')) :
    t.block.capacity s' = t.block.capacity s ∧ t.block.size s' ≤ t.block.capacity s ∧
      (t.elems s' ++ out).Perm (ops.flatMap Op.given) := by
  obtain ⟨h1, h2, h3⟩ := (t.core False hw).run_ok (t.popOk False hw) ops (fun op _ => okTrue op) s out s'
    (t.init_inv False s hi fun h => h.elim) hr
  rw [t.init_elems s hi] at h3
  exact ⟨h2, ((t.core False hw).bounded s' h1).trans h2.le, by simpa using h3⟩

/-- **C47 (lookups and flush).** In every reachable state `contains` and `take` find exactly what is
stored, and, without `FlushStopper`, `flush` returns everything and empties the container. -/
theorem C47_stack_lookup (t : Stack K V) (hw : t.WF) (hn : t.NoAssociative) (s₀ s : t.block.State)
    (hi : t.Init s₀) (hr : Reachable t.block s₀ s) (k : K) :
    (∃ b s', t.block.contains s k = .ok (b, s') ∧ (b = true ↔ HasKey (t.elems s) k) ∧
      t.elems s' = t.elems s) ∧
    (∃ o s', t.block.take s k = .ok (o, s') ∧
      match o with
      | none => ¬ HasKey (t.elems s) k ∧ (t.elems s').Perm (t.elems s)
      | some e => e.1 = k ∧ (e :: t.elems s').Perm (t.elems s)) ∧
    (t.NoFlushStopper → ∃ out s', t.block.flush s = .ok (out, s') ∧ t.elems s' = [] ∧
      out.Perm (t.elems s)) := by
  have hI := (t.lawful False hw hn).reachable (t.init_inv False s₀ hi fun h => h.elim) hr
  refine ⟨?_, ?_, fun hf => t.flushes False hw hf s hI⟩
  · obtain ⟨b, s', h1, -, -, -, h5, h6⟩ := (t.lawful False hw hn).contains s k hI
    exact ⟨b, s', h1, h6, h5⟩
  · obtain ⟨o, s', h1, -, -, h4⟩ := (t.lawful False hw hn).take s k hI
    exact ⟨o, s', h1, h4⟩

/-- **C53.** The same histories mixed with `get` and `get_mut` (writing anything), when elements count
for 1 and the front of each `Exclusive` has room: no panic, within capacity, every key conserved. -/
theorem C53_stack_calls (t : Stack K V) (hw : t.WF) (hn : t.NoAssociative) (hg : t.GetWF)
    (s : t.block.State) (hi : t.Init s) (hroom : t.FrontRoom s) (cs : List (Call K V)) :
    ∃ out s', t.block.calls t.gets s cs = .ok (out, s') ∧
      t.block.capacity s' = t.block.capacity s ∧ t.block.size s' ≤ t.block.capacity s ∧
      ((t.elems s' ++ out).map Prod.fst).Perm ((cs.flatMap Call.given).map Prod.fst) := by
  obtain ⟨out, s', h1, -, h3, h4, h5⟩ := (t.lawful True hw hn).calls (t.getLawful hw hg) cs
    (fun c _ => by
      cases c with
      | op o => exact okTrue o
      | get => trivial
      | getMut => trivial) s (t.init_inv True s hi fun _ => hroom)
  rw [t.init_elems s hi] at h5
  exact ⟨out, s', h1, h4, h3.trans h4.le, by simpa using h5⟩

/-- **C53 (with `Associative`).** For any shape, `Associative` included: histories without `pop` do not
panic, and histories with `pop` that returned kept the capacity, are within it and conserved every
key. -/
theorem C53_stack_calls_associative (t : Stack K V) (hw : t.WF) (hg : t.GetWF) (s : t.block.State)
    (hi : t.Init s) (hroom : t.FrontRoom s) (cs : List (Call K V)) :
    ((∀ c ∈ cs, c.NotPop) → ∃ out s', t.block.calls t.gets s cs = .ok (out, s')) ∧
    ∀ out s', t.block.calls t.gets s cs = .ok (out, s') →
      t.block.capacity s' = t.block.capacity s ∧ t.block.size s' ≤ t.block.capacity s ∧
      ((t.elems s' ++ out).map Prod.fst).Perm ((cs.flatMap Call.given).map Prod.fst) := by
  have hok : ∀ c : Call K V, c.Ok (fun _ => True) (fun _ => True) := fun c => by
    cases c with
    | op o => exact okTrue o
    | get => trivial
    | getMut => trivial
  have h0 := t.init_inv True s hi fun _ => hroom
  constructor
  · intro hnp
    obtain ⟨out, s', h1, -⟩ := (t.core True hw).calls (t.getLawful hw hg) cs
      (fun c hc => ⟨hok c, hnp c hc⟩) s h0
    exact ⟨out, s', h1⟩
  · intro out s' hr
    obtain ⟨h1, h2, h3⟩ := (t.core True hw).calls_ok (t.popOk True hw) (t.getLawful hw hg) cs
      (fun c _ => hok c) s out s' h0 hr
    rw [t.init_elems s hi] at h3
    exact ⟨h2, ((t.core True hw).bounded s' h1).trans h2.le, by simpa using h3⟩

end

/-! ## C48 -/

/-- The one element with key `k` in a list without duplicate keys. -/
theorem unique_value {l : List (K × V)} (hn : (l.map Prod.fst).Nodup) {k : K} {v w : V}
    (h1 : (k, v) ∈ l) (h2 : (k, w) ∈ l) : v = w := by
  induction l with
  | nil => simp at h1
  | cons e l ih =>
    simp only [List.map_cons, List.nodup_cons] at hn
    rcases List.mem_cons.1 h1 with rfl | h1'
    · rcases List.mem_cons.1 h2 with h | h2'
      · exact ((Prod.mk.inj h).2).symm
      · exact absurd (List.mem_map.2 ⟨_, h2', rfl⟩) hn.1
    · rcases List.mem_cons.1 h2 with rfl | h2'
      · exact absurd (List.mem_map.2 ⟨_, h1', rfl⟩) hn.1
      · exact ih hn.2 h1' h2'

/-- **C48 (any container).** In a container obeying the contracts without duplicate keys: if
`get_mut(k)` finds a value `v` and `f v` is written, then `get(k)` and `take(k)` both return `f v`, and
all the other elements are those stored before. -/
theorem C48_write_then_read {B : Block K V} {G : GetOps B} {Inv elems PreF}
    (h : Core B Inv elems fun _ => True) (g : GetLawful B G Inv elems PreF) (hid : PreF id)
    (s : B.State) (hs : Inv s) (hn : ((elems s).map Prod.fst).Nodup)
    (k : K) (f : V → V) (hf : PreF f) (v : V) (s₁ : B.State) (hw : G.getMut s k f = .ok (some v, s₁)) :
    (∃ rest, (elems s).Perm ((k, v) :: rest) ∧ (elems s₁).Perm ((k, f v) :: rest) ∧ ¬ HasKey rest k) ∧
    (∃ s₂, G.get s₁ k id = .ok (some (f v), s₂) ∧ (elems s₂).Perm (elems s₁)) ∧
    (∃ s₂, B.take s₁ k = .ok (some (k, f v), s₂)) := by
  obtain ⟨o, s', h1, h2, -, h4⟩ := g.getMut s k f hs hf
  rw [hw] at h1
  cases h1
  obtain ⟨rest, r1, r2⟩ := h4
  have hn0 := (r1.map Prod.fst).nodup_iff.1 hn
  simp only [List.map_cons, List.nodup_cons] at hn0
  have hn1 : ((elems s₁).map Prod.fst).Nodup :=
    (r2.map Prod.fst).nodup_iff.2 (by simpa using hn0)
  have hmem : (k, f v) ∈ elems s₁ := r2.mem_iff.2 (by simp)
  refine ⟨⟨rest, r1, r2, fun hk => hn0.1 (hasKey_iff_mem_map.1 hk)⟩, ?_, ?_⟩
  · obtain ⟨o, s₂, g1, -, -, g4⟩ := g.get s₁ k id h2 hid
    cases o with
    | none => exact absurd ⟨_, hmem⟩ g4.1
    | some w =>
      obtain ⟨r, q1, q2⟩ := g4
      have : w = f v := unique_value hn1 (q1.mem_iff.2 (by simp)) hmem
      subst this
      exact ⟨s₂, g1, q2.trans q1.symm⟩
  · obtain ⟨o, s₂, g1, -, -, g4⟩ := h.take s₁ k h2
    cases o with
    | none => exact absurd ⟨_, hmem⟩ g4.1
    | some e =>
      obtain ⟨k', w⟩ := e
      obtain ⟨rfl, q⟩ := g4
      have : w = f v := unique_value hn1 (q.mem_iff.1 (by simp)) hmem
      subst this
      exact ⟨s₂, g1⟩

/-- **C48 (stacks).** In particular in every stack of any shape with unit sizes. -/
theorem C48_stack [LinearOrder K] (t : Stack K V) (hw : t.WF) (hn : t.NoAssociative) (hg : t.GetWF)
    (s₀ : t.block.State) (hi : t.Init s₀) (hroom : t.FrontRoom s₀) (cs : List (Call K V))
    (out : List (K × V)) (s : t.block.State) (hr : t.block.calls t.gets s₀ cs = .ok (out, s))
    (hnd : ((t.elems s).map Prod.fst).Nodup) (k : K) (f : V → V) (v : V) (s₁ : t.block.State)
    (hwr : t.gets.getMut s k f = .ok (some v, s₁)) :
    (∃ rest, (t.elems s).Perm ((k, v) :: rest) ∧ (t.elems s₁).Perm ((k, f v) :: rest) ∧
      ¬ HasKey rest k) ∧
    (∃ s₂, t.gets.get s₁ k id = .ok (some (f v), s₂) ∧ (t.elems s₂).Perm (t.elems s₁)) ∧
    (∃ s₂, t.block.take s₁ k = .ok (some (k, f v), s₂)) := by
  obtain ⟨out', s', h1, h2, -⟩ := (t.lawful True hw hn).calls (t.getLawful hw hg) cs
    (fun c _ => by
      cases c with
      | op o => exact okTrue o
      | get => trivial
      | getMut => trivial) s₀ (t.init_inv True s₀ hi fun _ => hroom)
  rw [hr] at h1
  cases h1
  exact C48_write_then_read (t.core True hw) (t.getLawful hw hg) trivial s h2 hnd k f trivial v s₁ hwr

/-- **C48 (Array, duplicate keys).** An `Array` may hold a key several times; reads, writes and `take`
then all concern the same (first) element. -/
theorem C48_array_first [LinearOrder K] (sz : K × V → Nat) (srt srtS : Sorter (K × V)) (s s₁ : Array K V)
    (hs : Array.Inv sz s) (k : K) (f : V → V) (hf : ∀ k v, sz (k, f v) = sz (k, v)) (v : V)
    (hw : (arrayGet sz srt srtS).getMut s k f = .ok (some v, s₁)) :
    (arrayGet sz srt srtS).get s₁ k id = .ok (some (f v), s₁) ∧
    ∃ s₂, (arrayBlock sz srt srtS).take s₁ k = .ok (some (k, f v), s₂) := by
  obtain ⟨o, a, h1, h2, -, h4⟩ := Array.getMut_spec sz s k f hs hf
  simp only [arrayGet, h1] at hw
  cases hw
  obtain ⟨i, i1, i2, i3, -⟩ := h4
  have hlt : i < s.values.length := (List.getElem?_eq_some_iff.1 i2).1
  have hget : s₁.values[i]? = some (k, f v) := by rw [i3]; simp [hlt]
  have hfind : findKey s₁.values k = some i := by
    rw [i3]
    unfold findKey at i1 ⊢
    rw [List.findIdx?_eq_some_iff_getElem] at i1 ⊢
    obtain ⟨hl, a1, a2⟩ := i1
    refine ⟨by simpa using hl, by simp, ?_⟩
    intro j hji
    have := a2 j hji
    rw [List.getElem_set_ne (by omega)]
    exact this
  constructor
  · simp only [arrayGet, Array.getMut, hfind, hget, id]
    have hset : s₁.values.set i (k, f v) = s₁.values := by
      obtain ⟨hl, hv⟩ := List.getElem?_eq_some_iff.1 hget
      rw [← hv, List.set_getElem_self]
    rw [hset]; rfl
  · obtain ⟨o, s₂, g1, -, -, -⟩ := Array.take_spec sz s₁ k h2
    simp only [Array.take, hfind, hget, Res.unwrap_some, Res.ok_bind] at g1
    refine ⟨s₂, ?_⟩
    simp only [arrayBlock, Array.take, hfind, hget, Res.unwrap_some, Res.ok_bind]
    cases hsub : Res.sub s₁.totalSize (sz (k, f v)) with
    | panic => simp [hsub] at g1
    | ok t => simp only [hsub, Res.ok_bind, Res.pure_eq, Res.ok.injEq] at g1 ⊢; cases g1; rfl

/-! ## C49 -/

/-- Taking out the elements with the keys `ks` is determined by the contents. -/
theorem taken_eq_filter [DecidableEq K] {l rest out : List (K × V)} {ks : List K}
    (hn : (l.map Prod.fst).Nodup) (hp : (rest ++ out).Perm l) (h1 : ∀ e ∈ out, e.1 ∈ ks)
    (h2 : ∀ k ∈ ks, HasKey l k → HasKey out k) :
    out.Perm (l.filter fun e => e.1 ∈ ks) ∧ rest.Perm (l.filter fun e => e.1 ∉ ks) := by
  have hn' := (hp.map Prod.fst).nodup_iff.2 hn
  rw [List.map_append] at hn'
  have hdis := (List.nodup_append.1 hn').2.2
  have h3 : ∀ e ∈ rest, e.1 ∉ ks := by
    intro e he hk
    obtain ⟨v, hv⟩ := h2 e.1 hk ⟨e.2, hp.subset (by simp [he])⟩
    exact hdis e.1 (List.mem_map.2 ⟨e, he, rfl⟩) e.1 (List.mem_map.2 ⟨_, hv, rfl⟩) rfl
  have e1 := (hp.filter fun e => decide (e.1 ∈ ks))
  have e2 := (hp.filter fun e => decide (e.1 ∉ ks))
  rw [List.filter_append, List.filter_eq_nil_iff.2 (by simpa using h3),
    List.filter_eq_self.2 (by simpa using h1), List.nil_append] at e1
  rw [List.filter_append, List.filter_eq_self.2 (by simpa using h3),
    List.filter_eq_nil_iff.2 (by simpa using h1), List.append_nil] at e2
  exact ⟨e1, e2⟩

/-- **C49.** In any container obeying the contract, without duplicate keys: `take_multiple(ks)`
returns exactly the stored elements whose key is in `ks` and leaves the others — the same elements
returned and the same contents left as calling `take(k)` for each `k` in `ks`. -/
theorem C49_take_multiple_is_takes [DecidableEq K] {B : Block K V} {Inv elems}
    {Pre : List (K × V) → Prop} (h : Core B Inv elems Pre) (s : B.State) (hs : Inv s)
    (hn : ((elems s).map Prod.fst).Nodup) (ks : List K) :
    ∃ out ks' s₁ out' s₂,
      B.takeMultiple s ks = .ok (out, ks', s₁) ∧
      B.run s (ks.map Op.take) = .ok (out', s₂) ∧
      out.Perm out' ∧ (elems s₁).Perm (elems s₂) ∧
      out.Perm ((elems s).filter fun e => e.1 ∈ ks) ∧
      (elems s₁).Perm ((elems s).filter fun e => e.1 ∉ ks) := by
  obtain ⟨out, ks', s₁, h1, -, -, h4, h5, h6, -, -⟩ := h.takeMultiple s ks hs
  obtain ⟨out', s₂, g1, -, -, g4, g5, g6⟩ := defaultTakeMultiple_spec h ks s hs
  have hrun : ∀ (ks : List K) (s : B.State), B.run s (ks.map Op.take) = defaultTakeMultiple B.take s ks := by
    intro ks
    induction ks with
    | nil => intro s; rfl
    | cons k ks ih =>
      intro s
      simp only [List.map_cons, Block.run, Block.step, defaultTakeMultiple]
      cases B.take s k with
      | panic => rfl
      | ok r => simp only [Res.ok_bind, Res.pure_eq, ih]
  obtain ⟨a1, a2⟩ := taken_eq_filter hn h4 h5 h6
  obtain ⟨b1, b2⟩ := taken_eq_filter hn g4
    (fun e he => g5.subset (List.mem_map.2 ⟨e, he, rfl⟩)) g6
  exact ⟨out, ks', s₁, out', s₂, h1, by rw [hrun]; exact g1, a1.trans b1.symm, a2.trans b2.symm, a1, a2⟩

/-! ## Non-vacuity: a concrete deep stack -/

/-- Values with a serial number. -/
def serial (V : Type) : Decoration V where
  Factory := Nat
  Item := V × Nat
  wrap n v := ((v, n), n + 1)
  unwrap i := i.1

/-- Cells change the value and keep the number. -/
def serialAccess (V : Type) : Access (serial V) where
  access _ f i := (f i.1, i.2)
  tick n := n

/-- `Profiler<Exclusive<Decorator<Array>, Batch<Exclusive<dyn (Array or Batch<Array>),
FlushStopper<Array>>>>>`. -/
def deep : Stack Nat Nat :=
  .profiler (.exclusive
    (.decorator (serial Nat) (serialAccess Nat)
      (.array (fun _ => 1) ⟨id, fun _ => List.Perm.refl _⟩ ⟨id, fun _ => List.Perm.refl _⟩))
    (.batch (.exclusive
      (.dyn Bool fun
        | true => .array (fun _ => 1) natSorter natSorter
        | false => .batch (.array (fun _ => 1) natSorter natSorter))
      (.flushStopper (.array (fun _ => 1) natSorter natSorter)))))

theorem deep_WF : deep.WF :=
  ⟨⟨Or.inl trivial, ⟨Or.inr ⟨trivial, trivial⟩, Or.inl trivial⟩⟩, ⟨fun _ _ => rfl, trivial⟩,
    ⟨fun i => by cases i <;> exact trivial, trivial⟩⟩

theorem deep_GetWF : deep.GetWF :=
  ⟨fun _ => rfl, ⟨fun i => by cases i <;> exact fun _ => rfl, fun _ => rfl⟩,
    ⟨fun _ _ _ => rfl, fun _ => rfl⟩,
    ⟨fun i => by cases i <;> exact fun _ => rfl, fun _ => rfl,
      fun i => by cases i <;> exact fun _ => rfl, fun _ => rfl⟩⟩

/-- A new container of this type: front of 2, two batches of capacity 1 + 3 and (1 + 1) + 3. -/
def deepNew : deep.block.State :=
  (((Array.new 2, (0 : Nat)),
    [(⟨true, Array.new 1⟩, Array.new 3), (⟨false, [Array.new 1, Array.new 1]⟩, Array.new 3)]), {})

example : deep.block.capacity deepNew = 11 := rfl

theorem deepNew_init : deep.Init deepNew := by
  refine ⟨⟨⟨2, rfl⟩, ?_⟩, rfl⟩
  intro x hx
  rcases List.mem_cons.1 hx with rfl | hx
  · exact ⟨⟨1, rfl⟩, ⟨3, rfl⟩⟩
  · rcases List.mem_cons.1 hx with rfl | hx
    · refine ⟨?_, ⟨3, rfl⟩⟩
      intro y hy
      rcases List.mem_cons.1 hy with rfl | hy
      · exact ⟨1, rfl⟩
      · rcases List.mem_cons.1 hy with rfl | hy
        · exact ⟨1, rfl⟩
        · exact absurd hy List.not_mem_nil
    · exact absurd hx List.not_mem_nil

example := C47_stack_history deep deep_WF ⟨trivial, ⟨fun i => by cases i <;> exact trivial, trivial⟩⟩
  deepNew deepNew_init
  [.push [(1, 10), (2, 20), (3, 30)], .push [(4, 5)], .takeMultiple [1, 9, 4], .pop 2, .flush]

end StackProps
end Byoc
