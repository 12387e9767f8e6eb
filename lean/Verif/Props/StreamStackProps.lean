import Verif.Proofs.StreamStack
import Verif.Proofs.PopOk
import Verif.Props.StreamProps
import Verif.Props.ArrayProps

/-!
# C114: any nesting over `Array`, `Stream` and `Compressed`
-/

namespace Byoc
namespace StreamStackProps

variable {K V : Type}

/-- What is in the container: what a `pop` of more than its size would hand out. -/
def inside (B : Block K V) (s : B.State) : List (K × V) :=
  match B.pop s (B.size s + 1) with
  | .ok (out, _) => out
  | .panic => []

/-- The calls whose contract survives serialised storage: everything but `take_multiple`, and `flush`
only when no `Stream` is inside. -/
def Allowed (t : StoreStack K V) : Op K V → Prop
  | .takeMultiple _ => False
  | .flush => t.NoStream
  | _ => True

/-- **C114 in full**: every history of calls. -/
def C114_full : Prop := ∀ (V : Type) (t : StoreStack Nat V), t.WF → t.NoAssociative →
  ∀ s₀ : t.block.State, t.Init s₀ → ∀ ops : List (Op Nat V),
    ∃ out s, t.block.run s₀ ops = .ok (out, s) ∧ t.block.size s ≤ t.block.capacity s ∧
      t.block.capacity s = t.block.capacity s₀ ∧
      (inside t.block s ++ out).Perm (ops.flatMap Op.given)

/-! ## Proofs -/

section
variable [LinearOrder K]

omit [LinearOrder K] in
/-- A container whose patched version is lawful: what `pop` of more than the size hands out. -/
theorem inside_perm {fl : Bool} {B : Block K V} {I : B.State → Prop} {ec : B.State → List (K × V)}
    (h : Lawful (patch fl B) I ec (fun _ => True)) (s : B.State) (hs : I s) :
    (inside B s).Perm (ec s) := by
  obtain ⟨out, s', h1, h2, h3, h4, h5⟩ := h.pop s (B.size s + 1) hs
  have h1 : B.pop s (B.size s + 1) = .ok (out, s') := h1
  have hnil : ec s' = [] := by
    rcases h5 with h5 | h5
    · exfalso
      have h5 : B.size s' + (B.size s + 1) ≤ B.size s := h5
      omega
    · exact h5
  have : inside B s = out := by unfold inside; rw [h1]
  rw [this]
  rw [hnil] at h4
  simpa using h4

omit [LinearOrder K] in
/-- An allowed call is not affected by the patch. -/
theorem step_patch {fl : Bool} (B : Block K V) (s : B.State) (op : Op K V)
    (h1 : ∀ ks, op ≠ .takeMultiple ks) (h2 : op = .flush → fl = true) :
    (patch fl B).step s op = B.step s op := by
  cases op with
  | takeMultiple ks => exact absurd rfl (h1 ks)
  | flush => have := h2 rfl; subst this; rfl
  | _ => rfl

omit [LinearOrder K] in
theorem run_patch {fl : Bool} (B : Block K V) (ops : List (Op K V))
    (h1 : ∀ op ∈ ops, ∀ ks, op ≠ .takeMultiple ks) (h2 : ∀ op ∈ ops, op = .flush → fl = true) :
    ∀ s : B.State, (patch fl B).run s ops = B.run s ops := by
  induction ops with
  | nil => intro s; rfl
  | cons op ops ih =>
    intro s
    have e1 := step_patch (fl := fl) B s op (h1 op (by simp)) (h2 op (by simp))
    have e2 := ih (fun o ho => h1 o (by simp [ho])) (fun o ho => h2 o (by simp [ho]))
    show ((patch fl B).step s op >>= fun r => (patch fl B).run r.2 ops >>= fun q =>
      (.ok (r.1 ++ q.1, q.2) : Res (List (K × V) × B.State))) = _
    have e3 : (fun r : List (K × V) × B.State => ((patch fl B).run r.2 ops >>= fun q =>
        (.ok (r.1 ++ q.1, q.2) : Res (List (K × V) × B.State)))) =
        fun r => (B.run r.2 ops >>= fun q => (.ok (r.1 ++ q.1, q.2) : Res (List (K × V) × B.State))) := by
      funext r
      exact congrArg (fun x : Res (List (K × V) × B.State) => (x >>= fun q =>
        (.ok (r.1 ++ q.1, q.2) : Res (List (K × V) × B.State)))) (e2 r.2)
    exact (congrArg (fun x : Res (List (K × V) × B.State) => x >>= _) e1).trans
      (congrArg (fun g => (B.step s op >>= g)) e3)

omit [LinearOrder K] in
/-- The patch that leaves the allowed calls alone. -/
theorem allowed_patch (t : StoreStack K V) (ops : List (Op K V)) (hops : ∀ op ∈ ops, Allowed t op) :
    ∃ fl : Bool, (fl = true → t.NoStream) ∧ (∀ op ∈ ops, ∀ ks, op ≠ .takeMultiple ks) ∧
      ∀ op ∈ ops, op = .flush → fl = true := by
  have h1 : ∀ op ∈ ops, ∀ ks, op ≠ Op.takeMultiple ks := by
    rintro op ho ks rfl; exact hops _ ho
  by_cases hn : t.NoStream
  · exact ⟨true, fun _ => hn, h1, fun _ _ _ => rfl⟩
  · refine ⟨false, fun h => (nomatch h), h1, ?_⟩
    rintro op ho rfl; exact absurd (hops _ ho) hn

theorem run_spec (t : StoreStack K V) (hw : t.WF) (ha : t.NoAssociative) (s₀ : t.block.State)
    (h₀ : t.Init s₀) (ops : List (Op K V)) (hops : ∀ op ∈ ops, Allowed t op) :
    ∃ out s, t.block.run s₀ ops = .ok (out, s) ∧ t.Inv s ∧ t.block.size s ≤ t.block.capacity s ∧
      t.block.capacity s = t.block.capacity s₀ ∧ (t.elems s ++ out).Perm (ops.flatMap Op.given) := by
  obtain ⟨fl, hn, h1, h2⟩ := allowed_patch t ops hops
  obtain ⟨out, s, g1, g2, g3, g4, g5⟩ := (t.lawful fl hw ha hn).run ops
    (fun op _ => by cases op <;> trivial) s₀ (t.init_inv hw s₀ h₀)
  rw [t.init_elems hw s₀ h₀] at g5
  exact ⟨out, s, (run_patch t.block ops h1 h2 s₀).symm.trans g1, g2, g3, g4, by simpa using g5⟩

/-- **C114, what holds.**  A container nested in any way over `Array`s, `Stream`s and `Compressed`s, any
history of `contains`, `take`, `pop`, `push`, and `flush` if no `Stream` is inside: no call panics, the
size stays within the capacity, which does not change, and every element given is inside or has been
handed back, once. -/
theorem C114_partial (t : StoreStack K V) (hw : t.WF) (ha : t.NoAssociative) (s₀ : t.block.State)
    (h₀ : t.Init s₀) (ops : List (Op K V)) (hops : ∀ op ∈ ops, Allowed t op) :
    ∃ out s, t.block.run s₀ ops = .ok (out, s) ∧ t.block.size s ≤ t.block.capacity s ∧
      t.block.capacity s = t.block.capacity s₀ ∧
      (inside t.block s ++ out).Perm (ops.flatMap Op.given) := by
  obtain ⟨out, s, h1, h2, h3, h4, h5⟩ := run_spec t hw ha s₀ h₀ ops hops
  refine ⟨out, s, h1, h3, h4, ?_⟩
  have := inside_perm (t.lawful false hw ha (fun h => (nomatch h))) s h2
  perms [this, h5]

/-- **C114, the next call** after such a history: `contains` says whether an element with the key is
inside; `take` hands out one element with the key if there is one, and nothing else; `pop` frees what it
is asked or empties the container; `push` puts in or hands back; and without a `Stream`, `flush` takes
out only what it returns. -/
theorem C114_calls_partial (t : StoreStack K V) (hw : t.WF) (ha : t.NoAssociative) (s₀ : t.block.State)
    (h₀ : t.Init s₀) (ops : List (Op K V)) (hops : ∀ op ∈ ops, Allowed t op) (out : List (K × V))
    (s : t.block.State) (hs : t.block.run s₀ ops = .ok (out, s)) :
    (∀ k, ∃ b s', t.block.contains s k = .ok (b, s') ∧ (b = true ↔ HasKey (inside t.block s) k) ∧
      (inside t.block s').Perm (inside t.block s)) ∧
    (∀ k, ∃ o s', t.block.take s k = .ok (o, s') ∧
      (inside t.block s' ++ o.toList).Perm (inside t.block s) ∧ (∀ e, o = some e → e.1 = k) ∧
      (o = none ↔ ¬ HasKey (inside t.block s) k)) ∧
    (∀ n, ∃ out s', t.block.pop s n = .ok (out, s') ∧
      (inside t.block s' ++ out).Perm (inside t.block s) ∧
      (t.block.size s' + n ≤ t.block.size s ∨ inside t.block s' = [])) ∧
    (∀ l, ∃ out s', t.block.push s l = .ok (out, s') ∧
      (inside t.block s' ++ out).Perm (inside t.block s ++ l)) ∧
    (t.NoStream → ∃ out s', t.block.flush s = .ok (out, s') ∧
      (inside t.block s' ++ out).Perm (inside t.block s)) ∧
    (inside t.block s = [] → t.block.size s = 0) := by
  obtain ⟨out', s', h1, h2, -⟩ := run_spec t hw ha s₀ h₀ ops hops
  rw [hs] at h1
  cases h1
  have L := t.lawful false hw ha (fun h => (nomatch h))
  have P := fun s hs => inside_perm L s hs
  have p0 := P s h2
  refine ⟨?_, ?_, ?_, ?_, ?_, ?_⟩
  · intro k
    obtain ⟨b, s', g1, g2, g3, g4, g5, g6⟩ := L.contains s k h2
    refine ⟨b, s', g1, g6.trans (hasKey_perm p0).symm, ?_⟩
    have q := P s' g2
    rw [g5] at q
    exact q.trans p0.symm
  · intro k
    obtain ⟨o, s', g1, g2, g3, g4⟩ := L.take s k h2
    have q := P s' g2
    refine ⟨o, s', g1, ?_⟩
    cases o with
    | none =>
      refine ⟨?_, by simp, by simpa using fun h => g4.1 ((hasKey_perm p0).1 h)⟩
      have := g4.2
      simp only [Option.toList, List.append_nil]
      exact q.trans (this.trans p0.symm)
    | some e =>
      refine ⟨?_, by rintro _ ⟨⟩; exact g4.1, ?_⟩
      · have := g4.2
        simp only [Option.toList]
        perms [q, p0, this]
      · simp only [reduceCtorEq, false_iff, not_not]
        refine (hasKey_perm p0).2 ⟨e.2, g4.2.subset ?_⟩
        simp [← g4.1]
  · intro n
    obtain ⟨o, s', g1, g2, g3, g4, g5⟩ := L.pop s n h2
    have q := P s' g2
    refine ⟨o, s', g1, by perms [q, p0, g4], ?_⟩
    rcases g5 with g5 | g5
    · exact Or.inl g5
    · rw [g5] at q; exact Or.inr q.eq_nil
  · intro l
    obtain ⟨o, s', g1, g2, g3, g4⟩ := L.push s l h2 trivial
    have q := P s' g2
    exact ⟨o, s', g1, by perms [q, p0, g4]⟩
  · intro hn
    obtain ⟨o, s', g1, g2, g3, g4⟩ := (t.lawful true hw ha (fun _ => hn)).flush s h2
    have q := P s' g2
    exact ⟨o, s', g1, by perms [q, p0, g4]⟩
  · intro he
    rw [he] at p0
    exact L.empty_size s h2 p0.symm.eq_nil

/-- **C114, with `Associative` inside**: histories of `contains`, `take` and `push` (and `flush` if no
`Stream` is inside) do not panic, and stay within the capacity; `contains` and `take` find what was given
and not handed back. -/
theorem C114_associative_partial (t : StoreStack K V) (hw : t.WF) (s₀ : t.block.State)
    (h₀ : t.Init s₀) (ops : List (Op K V)) (hops : ∀ op ∈ ops, Allowed t op ∧ op.NotPop) :
    ∃ out s rest, t.block.run s₀ ops = .ok (out, s) ∧ t.block.size s ≤ t.block.capacity s ∧
      t.block.capacity s = t.block.capacity s₀ ∧ (rest ++ out).Perm (ops.flatMap Op.given) ∧
      (∀ k, ∃ b s', t.block.contains s k = .ok (b, s') ∧ (b = true ↔ HasKey rest k)) ∧
      (∀ k, ∃ o s', t.block.take s k = .ok (o, s') ∧ (∀ e, o = some e → e.1 = k ∧ e ∈ rest) ∧
        (o = none ↔ ¬ HasKey rest k)) := by
  obtain ⟨fl, hn, h1, h2⟩ := allowed_patch t ops (fun op ho => (hops op ho).1)
  have C := t.core fl hw hn
  obtain ⟨out, s, g1, g2, g3, g4, g5⟩ := C.run ops
    (fun op ho => ⟨by cases op <;> trivial, (hops op ho).2⟩) s₀ (t.init_inv hw s₀ h₀)
  rw [t.init_elems hw s₀ h₀] at g5
  refine ⟨out, s, t.elems s, (run_patch t.block ops h1 h2 s₀).symm.trans g1, g3, g4, by simpa using g5,
    ?_, ?_⟩
  · intro k
    obtain ⟨b, s', a1, -, -, -, -, a6⟩ := C.contains s k g2
    exact ⟨b, s', a1, a6⟩
  · intro k
    obtain ⟨o, s', a1, -, -, a4⟩ := C.take s k g2
    refine ⟨o, s', a1, ?_⟩
    cases o with
    | none => exact ⟨by simp, by simpa using a4.1⟩
    | some e =>
      have hm : e ∈ t.elems s := a4.2.subset (by simp)
      refine ⟨by rintro _ ⟨⟩; exact ⟨a4.1, hm⟩, ?_⟩
      simp only [reduceCtorEq, false_iff, not_not]
      exact ⟨e.2, by rw [← a4.1]; exact hm⟩

end

/-! ## Witnesses -/

/-- An `Array` in front of a `Stream`. -/
def tiers : StoreStack Nat Nat :=
  .exclusive (.array (fun _ => 1) ArrayProps.natSorter ArrayProps.natSorter)
    (.stream inferInstance StreamProps.small id)

/-- A `Profiler` over an `Array` in front of a `Batch` of a `Stream` behind a `FlushStopper`, the whole in
a `Sequential`, next to a `Compressed`. -/
def big : StoreStack Nat Nat :=
  .sequential (.profiler (.exclusive tiers (.batch (.flushStopper
    (.exclusive (.compressed CompressedProps.noComp CompressedProps.smallVec ArrayProps.natSorter
      ArrayProps.natSorter) (.stream inferInstance StreamProps.small id))))))

theorem tiers_wf : tiers.WF := ⟨trivial, StreamProps.small_small⟩

theorem big_wf : big.WF :=
  ⟨tiers_wf, CompressedProps.smallVec_law, StreamProps.small_small⟩

/-- The hypotheses of C114_partial are met by `big`, with two batches. -/
example : big.WF ∧ big.NoAssociative ∧ ∃ s₀ : big.block.State, big.Init s₀ ∧
    big.block.capacity s₀ = 1 + 16 + (100 + 8) + (50 + 4) :=
  ⟨big_wf, ⟨⟨trivial, trivial⟩, trivial, trivial⟩,
    (((Array.new 1, ByteStream.new 16),
      [(Compressed.new 100, ByteStream.new 8), (Compressed.new 50, ByteStream.new 4)]), {}),
    ⟨⟨⟨⟨1, rfl⟩, ⟨16, rfl⟩⟩, by
      intro x hx
      rcases List.mem_cons.1 hx with rfl | hx
      · exact ⟨⟨100, rfl⟩, ⟨8, rfl⟩⟩
      · rcases List.mem_singleton.1 hx with rfl
        exact ⟨⟨50, rfl⟩, ⟨4, rfl⟩⟩⟩, rfl⟩, by decide⟩

/-- **C114, `flush`**: of an `Array` in front of a `Stream`, the elements of the front are lost. -/
theorem C114_flush_loses :
    ((tiers.block.run (Array.new 1, ByteStream.new 16) [.push [(1, 0)], .flush]).bind fun r =>
      .ok (r.1, inside tiers.block r.2)) = .ok ([], []) := by
  decide +kernel

/-- **C114, `take_multiple`**: the element returned is still inside. -/
theorem C114_take_multiple_copies :
    ((tiers.block.run (Array.new 0, ByteStream.new 16) [.push [(1, 0)], .takeMultiple [1]]).bind fun r =>
      .ok (r.1, inside tiers.block r.2)) = .ok ([(1, 0)], [(1, 0)]) := by
  decide +kernel

theorem C114_false : ¬ C114_full := by
  intro h
  obtain ⟨out, s, h1, -, -, h4⟩ := h Nat tiers tiers_wf ⟨trivial, trivial⟩
    ((Array.new 1, ByteStream.new 16) : Array Nat Nat × ByteStream) ⟨⟨1, rfl⟩, ⟨16, rfl⟩⟩
    [.push [(1, 0)], .flush]
  have h2 := C114_flush_loses
  have h3 : ((tiers.block.run ((Array.new 1, ByteStream.new 16) : Array Nat Nat × ByteStream)
      [.push [(1, 0)], .flush]).bind fun r => .ok (r.1, inside tiers.block r.2)) =
      (.ok (out, inside tiers.block s) : Res (List (Nat × Nat) × List (Nat × Nat))) := by
    rw [h1]; rfl
  have h5 := h3.symm.trans h2
  simp only [Res.ok.injEq, Prod.mk.injEq] at h5
  rw [h5.1, h5.2] at h4
  simp [Op.given] at h4

end StreamStackProps
end Byoc
