import Verif.Proofs.MapStack
import Verif.Props.ArrayProps

/-!
# C72: stacks of all the building blocks

Any nesting of `Array`, `BTree`, `Compressed`, `Inclusive`, `Exclusive`, `Batch`, `Associative`,
`FlushStopper`, `Sequential`, dynamic containers, decorators, profilers and remote containers (`SocketClient`), used with
keys that are not already stored.
-/

namespace Byoc
namespace MapStackProps

variable {K V : Type}

/-- The user's account of a history: `held` is what was given and not yet handed back.  Every batch
pushed has distinct keys, none of them held. -/
def FreshFrom (B : Block K V) : B.State → List (K × V) → List (Op K V) → Prop
  | _, _, [] => True
  | s, held, op :: ops => ((held ++ op.given).map Prod.fst).Nodup ∧
      ∀ out s' held', B.step s op = .ok (out, s') → (held' ++ out).Perm (held ++ op.given) →
        FreshFrom B s' held' ops

/-- No key is ever pushed twice: then every history is fresh. -/
theorem freshFrom_of_distinct (B : Block K V) : ∀ (ops : List (Op K V)) (s : B.State) (held : List (K × V)),
    ((held ++ ops.flatMap Op.given).map Prod.fst).Nodup → FreshFrom B s held ops := by
  intro ops
  induction ops with
  | nil => intro _ _ _; trivial
  | cons op ops ih =>
    intro s held h
    rw [List.flatMap_cons] at h
    refine ⟨DistinctKeys.part (r := ops.flatMap Op.given) h (by perms []), ?_⟩
    intro out s' held' _ hp
    exact ih s' held' (DistinctKeys.part (r := out) h (by perms [hp]))

/-- What a user can see of a container in state `s` from which `held` was not handed back. -/
structure Holds (B : Block K V) (s : B.State) (held : List (K × V)) : Prop where
  bounded : B.size s ≤ B.capacity s
  empty : held = [] → B.size s = 0
  distinct : (held.map Prod.fst).Nodup
  contains : ∀ k, ∃ b s', B.contains s k = .ok (b, s') ∧ (b = true ↔ HasKey held k)
  take : ∀ k, ∃ o s', B.take s k = .ok (o, s') ∧ ∀ e, o = some e ↔ e.1 = k ∧ e ∈ held
  takeMultiple : ∀ ks, ∃ out ks' s', B.takeMultiple s ks = .ok (out, ks', s') ∧
    (∀ e, e ∈ out ↔ e.1 ∈ ks ∧ e ∈ held) ∧ (out.map Prod.fst).Nodup ∧ ∀ k ∈ ks, ¬ HasKey held k → k ∈ ks'

/-- Full statement of C72: whatever the shape, every fresh history returns, the capacity is constant and
respected, what was not handed back is found, and, without `FlushStopper`, flushed. -/
def C72_full : Prop :=
  ∀ (K V : Type) (_ : LinearOrder K) (t : MapStack K V), t.Sound →
    ∀ (s : t.block.State) (ops : List (Op K V)), t.Init s → FreshFrom t.block s [] ops →
    ∃ out s' held, t.block.run s ops = .ok (out, s') ∧ (held ++ out).Perm (ops.flatMap Op.given) ∧
      t.block.capacity s' = t.block.capacity s ∧ Holds t.block s' held

section
variable [LinearOrder K]

theorem holds_of {t : MapStack K V} (hw : t.WF) {s : t.block.State} (hs : t.Inv s) {held : List (K × V)}
    (hp : held.Perm (t.elems s)) : Holds t.block s held := by
  have m := (t.map hw).1
  have hd : DistinctKeys held := (m.distinct s hs).perm hp
  have key : ∀ {a b : K × V}, a ∈ held → b ∈ held → a.1 = b.1 → a = b := by
    intro a b ha hb he
    exact List.inj_on_of_nodup_map hd ha hb he
  refine ⟨m.bounded s hs, fun h => m.empty_size s hs ?_, hd, ?_, ?_, ?_⟩
  · subst h; exact List.nil_perm.1 hp
  · intro k
    obtain ⟨b, s', h1, -, -, -, -, h6⟩ := m.contains s k hs
    refine ⟨b, s', h1, h6.trans ?_⟩
    constructor
    · rintro ⟨v, hv⟩; exact ⟨v, hp.symm.subset hv⟩
    · rintro ⟨v, hv⟩; exact ⟨v, hp.subset hv⟩
  · intro k
    obtain ⟨o, s', h1, -, -, h4⟩ := m.take s k hs
    refine ⟨o, s', h1, fun e => ?_⟩
    cases o with
    | none =>
      refine ⟨fun h => by simp at h, fun h => absurd ⟨e.2, hp.subset ?_⟩ h4.1⟩
      rw [← h.1]; exact h.2
    | some x =>
      obtain ⟨h5, h6⟩ := h4
      have hx : x ∈ held := hp.symm.subset (h6.subset (by simp))
      constructor
      · rintro h; cases h; exact ⟨h5, hx⟩
      · rintro ⟨a, b⟩; rw [key hx b (h5.trans a.symm)]
  · intro ks
    obtain ⟨out, ks', s', h1, h2, h3, h4, h5, h6, h7, h8⟩ := m.takeMultiple s ks hs
    have hout : ∀ e ∈ out, e ∈ held := fun e he => hp.symm.subset (h4.subset (by simp [he]))
    refine ⟨out, ks', s', h1, fun e => ⟨fun he => ⟨h5 e he, hout e he⟩, fun he => ?_⟩, ?_, ?_⟩
    · obtain ⟨v, hv⟩ := h6 e.1 he.1 ⟨e.2, hp.subset he.2⟩
      rw [key he.2 (hout _ hv) rfl]; exact hv
    · exact DistinctKeys.part (m.distinct s hs) (r := t.elems s') (by perms [h4])
    · intro k hk hn
      refine h8 k hk fun ⟨v, hv⟩ => hn ⟨v, hout _ hv⟩

theorem step_fresh {t : MapStack K V} (hw : t.WF) {s : t.block.State} (hs : t.Inv s) (op : Op K V)
    (hop : t.NoAssociative ∨ op.NotPop) (hd : DistinctKeys (t.elems s ++ op.given)) :
    ∃ out s', t.block.step s op = .ok (out, s') ∧ t.Inv s' ∧
      t.block.capacity s' = t.block.capacity s ∧ (t.elems s' ++ out).Perm (t.elems s ++ op.given) := by
  have m := (t.map hw).1
  cases op with
  | push l => exact m.pushFresh s l hs hd
  | pop n =>
    rcases hop with hn | hn
    · obtain ⟨o, s', h1, h2, h3, h4, -⟩ := t.popLaw hw hn s n hs
      exact ⟨o, s', h1, h2, h3, by simpa [Op.given] using h4⟩
    · exact hn.elim
  | contains k => exact m.toCore.step s hs (.contains k) trivial trivial
  | take k => exact m.toCore.step s hs (.take k) trivial trivial
  | takeMultiple ks => exact m.toCore.step s hs (.takeMultiple ks) trivial trivial
  | flush => exact m.toCore.step s hs .flush trivial trivial

theorem run_fresh {t : MapStack K V} (hw : t.WF) : ∀ (ops : List (Op K V))
    (_ : t.NoAssociative ∨ ∀ op ∈ ops, op.NotPop) (s : t.block.State) (_ : t.Inv s)
    (held : List (K × V)) (_ : held.Perm (t.elems s)) (_ : FreshFrom t.block s held ops),
    ∃ out s', t.block.run s ops = .ok (out, s') ∧ t.Inv s' ∧
      t.block.capacity s' = t.block.capacity s ∧
      (t.elems s' ++ out).Perm (t.elems s ++ ops.flatMap Op.given) := by
  intro ops
  induction ops with
  | nil => intro _ s hs _ _ _; exact ⟨[], s, rfl, hs, rfl, by simp⟩
  | cons op ops ih =>
    intro hop s hs held hp hf
    obtain ⟨out, s1, h1, h2, h3, h4⟩ := step_fresh hw hs op (hop.imp id fun h => h op (by simp))
      (DistinctKeys.perm hf.1 (hp.symm.append_right _))
    obtain ⟨outs, s2, g1, g2, g3, g4⟩ := ih (hop.imp id fun h o ho => h o (by simp [ho])) s1 h2
      (t.elems s1) (List.Perm.refl _) (hf.2 _ _ _ h1 (by perms [h4, hp]))
    refine ⟨out ++ outs, s2, by simp [Block.run, h1, g1], g2, g3.trans h3, ?_⟩
    rw [List.flatMap_cons]
    perms [h4, g4]

/-- **C72**, proved part: for shapes in which the back of an `Inclusive` hands nothing back for an empty
batch (i.e. is not a `Compressed`), every fresh history returns (without `pop` if there is an
`Associative`), the capacity is constant and respected, and what was not handed back is found; without
`FlushStopper`, `flush` returns exactly that and leaves a container of size 0; without `Associative`,
`pop(n)` frees `n` or hands everything back. -/
theorem C72_partial (t : MapStack K V) (hw : t.WF) (s : t.block.State) (hi : t.Init s)
    (ops : List (Op K V)) (hf : FreshFrom t.block s [] ops)
    (hop : t.NoAssociative ∨ ∀ op ∈ ops, op.NotPop) :
    ∃ out s' held, t.block.run s ops = .ok (out, s') ∧ (held ++ out).Perm (ops.flatMap Op.given) ∧
      t.block.capacity s' = t.block.capacity s ∧ Holds t.block s' held ∧
      (t.NoFlushStopper → ∃ o s'', t.block.flush s' = .ok (o, s'') ∧ o.Perm held ∧
        t.block.size s'' = 0) ∧
      (t.NoAssociative → ∀ n, ∃ o s'', t.block.pop s' n = .ok (o, s'') ∧ o.Subperm held ∧
        (t.block.size s'' + n ≤ t.block.size s' ∨ o.Perm held)) := by
  have m := (t.map hw).1
  obtain ⟨out, s', h1, h2, h3, h4⟩ := run_fresh hw ops hop s (t.init_inv hw s hi) []
    (by rw [t.init_elems hw s hi]) hf
  rw [t.init_elems hw s hi] at h4
  refine ⟨out, s', t.elems s', h1, by simpa using h4, h3, holds_of hw h2 (List.Perm.refl _), ?_, ?_⟩
  · intro hn
    obtain ⟨o, s'', g1, g2, g3⟩ := t.flushes hw hn s' h2
    obtain ⟨o', t', k1, k2, -⟩ := m.flush s' h2
    rw [g1] at k1
    cases k1
    exact ⟨o, s'', g1, g3, m.empty_size s'' k2 g2⟩
  · intro hn n
    obtain ⟨o, s'', g1, g2, g3, g4, g5⟩ := t.popLaw hw hn s' n h2
    refine ⟨o, s'', g1, (List.sublist_append_right _ _).subperm.trans g4.subperm, g5.imp id fun h => ?_⟩
    rw [h] at g4
    simpa using g4

/-- The simplest fresh histories: all the keys pushed are different. -/
theorem C72_distinct (t : MapStack K V) (hw : t.WF) (s : t.block.State) (hi : t.Init s)
    (ops : List (Op K V)) (hd : ((ops.flatMap Op.given).map Prod.fst).Nodup)
    (hop : t.NoAssociative ∨ ∀ op ∈ ops, op.NotPop) :
    ∃ out s' held, t.block.run s ops = .ok (out, s') ∧ (held ++ out).Perm (ops.flatMap Op.given) ∧
      t.block.capacity s' = t.block.capacity s ∧ Holds t.block s' held := by
  obtain ⟨out, s', held, h1, h2, h3, h4, -⟩ := C72_partial t hw s hi ops
    (freshFrom_of_distinct _ ops s [] (by simpa using hd)) hop
  exact ⟨out, s', held, h1, h2, h3, h4⟩

end

/-! ### A shape with everything -/

section

/-- `Exclusive<BTree, Profiler<Batch<Compressed>>>`. -/
def deep : MapStack Nat Nat :=
  .exclusive (.btree inferInstance fun e => e.2)
    (.profiler (.batch (.compressed CompressedProps.noComp CompressedProps.smallVec
      CompressedProps.byValue CompressedProps.byValue)))

theorem deep_wf : deep.WF := ⟨trivial, CompressedProps.smallVec_law⟩

theorem deep_noAssociative : deep.NoAssociative := ⟨trivial, trivial⟩

/-- A `BTree` of 4 in front of two compressed batches of 20 bytes each. -/
def deepNew : deep.block.State := (BTree.new 4, [Compressed.new 20, Compressed.new 20], {})

theorem deep_init : deep.Init deepNew := by
  refine ⟨⟨4, rfl⟩, ?_, rfl⟩
  intro (x : Compressed) hx
  replace hx : x ∈ [Compressed.new 20, Compressed.new 20] := hx
  have h20 : x = Compressed.new 20 := by simpa using hx
  exact ⟨20, h20⟩

/-- Pushes overflowing the front into the batches, `pop` and `take`. -/
def deepHistory : List (Op Nat Nat) :=
  [.push [(1, 3), (2, 1)], .push [(3, 2), (4, 1)], .pop 9, .push [(5, 4)], .take 4, .flush]

theorem deep_fresh : FreshFrom deep.block deepNew [] deepHistory :=
  freshFrom_of_distinct _ _ _ _ (by decide)

example : ((deep.block.run deepNew deepHistory).bind fun r => .ok r.1) =
    .ok [(1, 3), (4, 1), (2, 1), (3, 2), (5, 4)] := by decide +kernel

/-! ### `Inclusive` over `Compressed` -/

/-- Cells of numbers below 256, on four bytes (`InclusiveCell` derives `Serialize`). -/
def cellParse : List UInt8 → Option (List (Nat × InclCell Nat))
  | [] => some []
  | a :: b :: u :: c :: r => (cellParse r).map ((a.toNat, ⟨b.toNat, u == 1, c == 1⟩) :: ·)
  | _ => none

def cellVec : VecCodec (Nat × InclCell Nat) where
  enc e := if e.1 < 256 ∧ e.2.value < 256 then
    some [UInt8.ofNat e.1, UInt8.ofNat e.2.value, if e.2.updated then 1 else 0,
      if e.2.cloned then 1 else 0] else none
  dec b := cellParse (b.drop 8)

theorem cellParse_body (l : List (Nat × InclCell Nat)) : ∀ b, cellVec.body l = some b →
    cellParse b = some l := by
  induction l with
  | nil => intro b h; cases h; simp [cellParse]
  | cons e l ih =>
    intro b h
    have he : e.1 < 256 ∧ e.2.value < 256 := by
      by_contra hc; simp [VecCodec.body, cellVec, hc] at h
    cases hb : cellVec.body l with
    | none => simp [VecCodec.body, hb] at h
    | some bs =>
      have hen : cellVec.enc e = some [UInt8.ofNat e.1, UInt8.ofNat e.2.value,
        if e.2.updated then 1 else 0, if e.2.cloned then 1 else 0] := if_pos he
      simp only [VecCodec.body, hb, hen] at h
      have : b = UInt8.ofNat e.1 :: UInt8.ofNat e.2.value :: (if e.2.updated then 1 else 0) ::
        (if e.2.cloned then 1 else 0) :: bs := by simpa using h.symm
      subst this
      have h2 : (UInt8.ofNat e.2.value).toNat = e.2.value := by simp; omega
      have h1 : (UInt8.ofNat e.1).toNat = e.1 := by simp; omega
      simp only [cellParse, h1, h2, ih bs hb, Option.map_some]
      obtain ⟨k, v, u, c⟩ := e
      cases u <;> cases c <;> simp

theorem cellVec_law : cellVec.Law := by
  intro l b h
  cases hb : cellVec.body l with
  | none => simp [VecCodec.encode, hb] at h
  | some bs =>
    simp only [VecCodec.encode, hb] at h
    have : b = VecCodec.header l.length ++ bs := by simpa using h.symm
    subst this
    have hd : (VecCodec.header l.length ++ bs).drop 8 = bs := by
      conv_lhs => rw [← VecCodec.header_length l.length]
      simp
    simp only [cellVec, hd]
    exact cellParse_body l bs hb

/-- `Inclusive<Array, Compressed>`. -/
def overCompressed : MapStack Nat Nat :=
  .inclusive (.array (fun _ => 1) InclusiveProps.cellSorter InclusiveProps.cellSorter)
    (.compressed CompressedProps.noComp cellVec InclusiveProps.cellSorter InclusiveProps.cellSorter)

/-- 14 bytes hold one element (8 for the length, 4 for the element); one push, then a flush: the flush
writes nothing back to the back container, which evicts an element for that and the flush panics. -/
theorem C72_flush_panics :
    overCompressed.block.run (Array.new 1, Compressed.new 14) [.push [(1, 5)], .flush] = .panic := by
  have h : ((overCompressed.block.run (Array.new 1, Compressed.new 14) [.push [(1, 5)], .flush]).bind
      fun r => .ok r.1) = .panic := by decide +kernel
  cases hr : overCompressed.block.run (Array.new 1, Compressed.new 14) [.push [(1, 5)], .flush] with
  | panic => rfl
  | ok r => rw [hr] at h; cases h

/-- **C72 is false of the code.** -/
theorem C72_false : ¬ C72_full := by
  intro h
  obtain ⟨out, s, held, h1, -⟩ := h Nat Nat inferInstance overCompressed ⟨trivial, cellVec_law⟩
    (Array.new 1, Compressed.new 14) [.push [(1, 5)], .flush] ⟨⟨1, rfl⟩, ⟨14, rfl⟩⟩
    (freshFrom_of_distinct _ _ _ _ (by decide))
  rw [C72_flush_panics] at h1
  cases h1

/-- `get_mut` on an `Inclusive<Array, Compressed>`: the flag "has a copy in front" is set on a
deserialised copy and lost, so that after writing 7 over 5 `take` returns 5 and the key is still
found. -/
theorem C72_stale_take :
    ((overCompressed.block.push (Array.new 1, Compressed.new 100) [(1, 5)]).bind fun r =>
      ((inclusiveGet (arrayGet (fun _ => 1) InclusiveProps.cellSorter InclusiveProps.cellSorter)
        (compressedGet CompressedProps.noComp cellVec InclusiveProps.cellSorter
          InclusiveProps.cellSorter)).getMut r.2 1 (fun _ => 7)).bind fun g =>
      (overCompressed.block.take g.2 1).bind fun t =>
      (overCompressed.block.contains t.2 1).bind fun c => .ok (g.1, t.1, c.1)) =
    .ok (some 5, some (1, 5), true) := by decide +kernel

end

end MapStackProps
end Byoc
