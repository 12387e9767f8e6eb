import Verif.Props.CellProps
import Verif.Props.StreamProps

/-!
# C86, C87: policies on a `Stream` container
-/

namespace Byoc.StreamPolicyProps

open Policy PolicyProps CellProps StreamProps

variable {K V T R : Type} [LinearOrder K] [LinearOrder R]

/-- A `ByteStream` decorated by `D`, the decorated values being ordered by their rank, and its cells. -/
abbrev streamed (D : Decoration V) (cd : Codec (K × D.Item)) (rank : D.Item → R) : Block K V :=
  decorator D (byteStreamBy cd rank)

abbrev streamedCells {D : Decoration V} (A : Access D) (cd : Codec (K × D.Item)) (rank : D.Item → R) :
    CellOps (streamed D cd rank) := decoratorCells A (byteStreamCells cd rank)

/-- Everything a container can be made to give back: what `pop(capacity + 1)` returns (`flush` of a
`ByteStream` loses elements, see C27). -/
def drained (B : Block K V) (s : B.State) : List (K × V) :=
  match B.pop s (B.capacity s + 1) with
  | .ok (out, _) => out
  | .panic => []

section
open ByteStream
variable {D : Decoration V} {A : Access D} {cd : Codec (K × D.Item)} {rank : D.Item → R}

/-- States with distinct keys. -/
def SInv (cd : Codec (K × D.Item)) (s : ByteStream) : Prop :=
  Inv cd s ∧ ((stored cd s).map Prod.fst).Nodup

theorem drained_spec (s : ByteStream) (h : Inv cd s) (fac : D.Factory) :
    (drained (streamed D cd rank) (s, fac)).Perm ((stored cd s).map (strip D)) := by
  obtain ⟨out, s', h1, h2, h3, h4, h5, -⟩ := popBy_spec rank s h (s.capacity + 1)
  have hb := h.bounded
  have hn : stored cd s' = [] := by
    rcases h5 with h5 | h5
    · omega
    · exact h5
  rw [hn, List.nil_append] at h4
  have e : (streamed D cd rank).pop (s, fac) (s.capacity + 1) = .ok (out.map (strip D), (s', fac)) := by
    show (ByteStream.popBy cd rank s (s.capacity + 1) >>= fun x => pure (x.1.map (strip D), (x.2, fac))) = _
    rw [h1]; rfl
  have e' : drained (streamed D cd rank) (s, fac) = out.map (strip D) := by
    unfold drained
    rw [show (streamed D cd rank).capacity (s, fac) = s.capacity from rfl, e]
  rw [e']
  exact h4.map _

theorem stream_keeps (hsmall : SmallCodec cd) : Keeps (byteStreamBy cd rank) (SInv cd) (stored cd) := by
  have nd : ∀ {l l' out : List (K × D.Item)}, (l' ++ out).Perm l → (l.map Prod.fst).Nodup →
      (l'.map Prod.fst).Nodup := fun hp hn => nodup_left hp hn
  intro s o hs hn
  cases o with
  | contains k =>
    obtain ⟨b, h1, -⟩ := contains_spec s hs.1 k
    exact ⟨_, s, by simp only [Block.step, byteStreamBy, h1, Res.ok_bind]; rfl, hs,
      fun e he => List.mem_append_left _ he⟩
  | take k =>
    obtain ⟨o, s1, h1, h2, -, h3⟩ := take_spec s hs.1 k
    refine ⟨_, s1, by simp only [Block.step, byteStreamBy, h1, Res.ok_bind]; rfl, ⟨h2, ?_⟩, ?_⟩
    · cases o with
      | none => exact nd (out := []) (by simpa using h3.2) hs.2
      | some e => exact nd (out := [e]) ((List.perm_append_singleton _ _).trans h3.2) hs.2
    · intro e he
      refine List.mem_append_left _ ?_
      cases o with
      | none => exact h3.2.mem_iff.1 he
      | some x => exact h3.2.mem_iff.1 (by simp [he])
  | takeMultiple ks =>
    obtain ⟨out, ks', h1, -⟩ := takeMultiple_spec s hs.1 ks
    exact ⟨_, s, by simp only [Block.step, byteStreamBy, h1, Res.ok_bind]; rfl, hs,
      fun e he => List.mem_append_left _ he⟩
  | pop n =>
    obtain ⟨out, s1, h1, h2, -, h3, -⟩ := popBy_spec rank s hs.1 n
    exact ⟨_, s1, h1, ⟨h2, nd h3 hs.2⟩, fun e he =>
      List.mem_append_left _ (h3.mem_iff.1 (by simp [he]))⟩
  | push l =>
    obtain ⟨out, s1, h1, h2, -, h3, -⟩ := push_spec hsmall s hs.1 l
    exact ⟨_, s1, h1, ⟨h2, nd h3 hn⟩, fun e he => h3.mem_iff.1 (by simp [he])⟩
  | flush =>
    obtain ⟨out, s1, h1, h2, -, h3, -⟩ := flush_spec s hs.1
    exact ⟨_, s1, h1, ⟨h2, by rw [h3]; simp⟩, by simp [h3]⟩

theorem get_cellLaw (Pre : List (Touch D.Item) → Prop) :
    CellLaw (byteStreamBy cd rank) (byteStreamCells cd rank).get (SInv cd) (stored cd) Pre
      (fun _ => false) := by
  intro s k ts hs _
  obtain ⟨o, h1, h2⟩ := get_spec s hs.1 k id
  refine ⟨o, s, h1, hs, rfl, ?_⟩
  cases o with
  | none => exact ⟨h2, List.Perm.refl _⟩
  | some v =>
    obtain ⟨a, b, e⟩ := List.append_of_mem h2
    refine ⟨a ++ b, ?_, ?_⟩ <;> rw [e] <;> exact List.perm_middle

theorem getMut_cellLaw (hsmall : SmallCodec cd) :
    CellLaw (byteStreamBy cd rank) (byteStreamCells cd rank).getMut (SInv cd) (stored cd)
      (fun ts => SameClass cd (effect ts)) (fun bs => bs.any id) := by
  intro s k ts hs hp
  have e : (ts.map Touch.mutably).any id = ts.any Touch.mutably := by simp [List.any_map]
  simp only [e]
  by_cases h : ts.any Touch.mutably = true
  · obtain ⟨o, s', h1, h2, h3, h4⟩ := getMut_spec hsmall s hs.1 k (effect ts) hp
    refine ⟨o, s', by simp only [byteStreamCells, h]; exact h1, ⟨h2, ?_⟩, h3, ?_⟩
    · cases o with
      | none => exact (h4.2.map Prod.fst).nodup_iff.2 hs.2
      | some v =>
        obtain ⟨rest, r1, r2⟩ := h4
        have := (r1.map Prod.fst).nodup_iff.1 hs.2
        exact (r2.map Prod.fst).nodup_iff.2 (by simpa using this)
    · cases o with
      | none => exact h4
      | some v => simpa [h] using h4
  · obtain ⟨o, s', h1, h2⟩ := get_cellLaw (cd := cd) (rank := rank) (fun _ => True) s k ts hs trivial
    refine ⟨o, s', by simp only [byteStreamCells, h]; exact h1, h2.1, h2.2.1, ?_⟩
    cases o with
    | none => exact h2.2.2
    | some v => simpa [h] using h2.2.2

/-- The element takes as many bytes when its cell is used so, in a history which reads the clock at most
`N` times. -/
def SameChunk (A : Access D) (cd : Codec (K × D.Item)) (read : D.Factory → Nat) (touch : Bool) (N : Nat)
    (ts : List (Touch V)) : Prop :=
  ∀ fac, (read fac + if touch then ts.length else 0) ≤ N → ∀ k i c,
    IsChunkOf cd (k, i) c → IsChunkOf cd (k, effect (A.touches fac ts) i) c

omit [LinearOrder K] in
theorem sameClass_of {W : Type} {cd : Codec (K × W)} (hsmall : SmallCodec cd) {f : W → W}
    (hf : ∀ k v c, IsChunkOf cd (k, v) c → IsChunkOf cd (k, f v) c) : SameClass cd f := by
  intro i k v hc
  obtain ⟨b, h1, h2⟩ := hc
  obtain ⟨j, hj1, hj2, hj3⟩ := isChunkOf_csz hsmall (k, v) (by rw [h1]; simp)
  have hcs : ByteStream.csz cd (k, v) = 2 ^ i := ByteStream.Class.csz ⟨b, h1, h2⟩
  have h3 := hf k v _ hj1
  have hne : cd.enc (k, f v) ≠ none := by
    obtain ⟨b, i, h1, -⟩ := h3
    rw [h1]; simp
  obtain ⟨j', hj1', hj2', hj3'⟩ := isChunkOf_csz hsmall (k, f v) hne
  have := h3.unique hj1'
  rw [hcs, hj2'] at this
  have : i = j' := Nat.pow_right_injective (le_refl 2) this
  rw [this]; exact hj3'

/-- The state of a decorated `ByteStream` after a history. -/
theorem stream_history (hsmall : SmallCodec cd) {stamp : D.Item → T}
    {clock : Nat → T} {read : D.Factory → Nat} {touch : Bool} (hD : Stamps D stamp clock read)
    (hA : Accesses D A stamp clock read touch) (cap : Nat) (fac : D.Factory) (xs : List (Session K V))
    (hk : ∀ x ∈ xs, Session.Within
      (SameChunk A cd read touch (read fac + (xs.map (readings touch)).sum)) x)
    (hf : Block.FreshSessions (streamedCells A cd rank) (drained (streamed D cd rank))
      (ByteStream.new cap, fac) xs) :
    ∃ outs s, Block.sessions (streamedCells A cd rank) (ByteStream.new cap, fac) xs = .ok (outs, s) ∧
      SInv cd s.1 ∧ Ranked stamp clock (read s.2) (stored cd s.1)
        (xs.flatMap (usedIn touch (fun _ => false) (fun bs => bs.any id))) := by
  obtain ⟨outs, s, h1, h2, -, h4⟩ := ranked_sessions (A := A) (G := byteStreamCells cd rank)
    (h := []) hD hA (stream_keeps hsmall) (fun s hs => hs.2)
    (get_cellLaw (fun ts => SameClass cd (effect ts))) (getMut_cellLaw hsmall) xs
    (fun x hx => by
      have := hk x hx
      cases x with
      | op o => trivial
      | get k n => exact fun fac h => sameClass_of hsmall (this fac h)
      | getMut k us => exact fun fac h => sameClass_of hsmall (this fac h))
    (elems := drained (streamed D cd rank))
    (fun s hs => drained_spec s.1 hs.1 s.2)
    (ByteStream.new cap, fac) ⟨new_inv cap, by simp [new_stored]⟩
    (by simp only [new_stored]; exact Ranked.nil) (le_refl _) hf
  exact ⟨outs, s, h1, h2, by simpa using h4⟩

variable [LinearOrder T] [LE D.Item] {stamp : D.Item → T} {clock : Nat → T} {read : D.Factory → Nat}

theorem stream_pop_evicts (hle : ∀ a b : D.Item, a ≤ b ↔ stamp b ≤ stamp a)
    (hrank : ∀ a b : D.Item, a ≤ b ↔ rank a ≤ rank b)
    (hm : StrictMono clock) {s : (streamed D cd rank).State} {n0 : Nat} {h : List K}
    (hs : SInv cd s.1) (hr : Ranked stamp clock n0 (stored cd s.1) h) (n : Nat) :
    ∃ out s', (streamed D cd rank).pop s n = .ok (out, s') ∧
      ∀ x ∈ out, ∀ y ∈ drained (streamed D cd rank) s', Before h x.1 y.1 := by
  obtain ⟨out, c', h1, h2, -, h4, -, h5⟩ := popBy_spec rank s.1 hs.1 n
  refine ⟨out.map (strip D), (c', s.2), ?_, ?_⟩
  · show (ByteStream.popBy cd rank s.1 n >>= fun x => pure (x.1.map (strip D), (x.2, s.2))) = _
    rw [h1]; rfl
  intro x hx y hy
  obtain ⟨x', hx', rfl⟩ := List.mem_map.1 hx
  obtain ⟨y', hy', rfl⟩ := List.mem_map.1 ((drained_spec c' h2 s.2).mem_iff.1 hy)
  have mx := h4.mem_iff.1 (List.mem_append_right _ hx')
  have my := h4.mem_iff.1 (List.mem_append_left _ hy')
  exact hr.before hm mx my (ne_of_split h4 hs.2 hx' hy') ((hle _ _).1 ((hrank _ _).2 (h5 x' hx' y' hy')))

omit [LinearOrder T] [LE D.Item] in
theorem stream_push_keeps (hsmall : SmallCodec cd) (hD : Stamps D stamp clock read)
    {s : (streamed D cd rank).State} (hs : SInv cd s.1) (l : List (K × V)) :
    ∃ out s', (streamed D cd rank).push s l = .ok (out, s') ∧ (∀ x ∈ out, x ∈ l) ∧
      (drained (streamed D cd rank) s' ++ out).Perm (drained (streamed D cd rank) s ++ l) := by
  obtain ⟨out, c', h1, h2, -, h4, h5, -⟩ := push_spec hsmall s.1 hs.1 (wrapAll D s.2 l).1
  have hw : ∀ (l : List (K × V)) fac, (wrapAll D fac l).1.map (strip D) = l := by
    intro l
    induction l with
    | nil => intro fac; rfl
    | cons e l ih =>
      intro fac
      obtain ⟨k, v⟩ := e
      simp only [wrapAll, List.map_cons, ih, strip, hD.faithful]
  refine ⟨out.map (strip D), (c', (wrapAll D s.2 l).2), ?_, ?_, ?_⟩
  · show (ByteStream.push cd s.1 (wrapAll D s.2 l).1 >>= fun x =>
      pure (x.1.map (strip D), (x.2, (wrapAll D s.2 l).2))) = _
    rw [h1]; rfl
  · intro x hx
    obtain ⟨x', hx', rfl⟩ := List.mem_map.1 hx
    rw [← hw l s.2]
    exact List.mem_map_of_mem (h5 x' hx').1
  · have e1 : (drained (streamed D cd rank) s).Perm _ := drained_spec s.1 hs.1 s.2
    have e2 := drained_spec (rank := rank) c' h2 (wrapAll D s.2 l).2
    refine (e2.append_right _).trans ?_
    refine List.Perm.trans ?_ (e1.append_right _).symm
    have := h4.map (strip D)
    rw [List.map_append, List.map_append, hw] at this
    exact this

end

/-! ## C86: `Fifo` -/

/-- What is done to the values does not change the number of bytes an element takes. -/
def FifoFits (cd : Codec (K × FifoCell V)) (xs : List (Session K V)) : Prop :=
  ∀ k us, .getMut k us ∈ xs → ∀ k' v t c, IsChunkOf cd (k', ⟨v, t⟩) c → IsChunkOf cd (k', ⟨final us v, t⟩) c

/-- Full statement of C86: on a `ByteStream` decorated with `Fifo`, after any history, everything evicted
by `pop` or by a further `push` was pushed before everything kept. -/
def C86_full : Prop :=
  ∀ (K V R : Type) (_ : LinearOrder K) (_ : LinearOrder R) (cd : Codec (K × FifoCell V)), SmallCodec cd →
  ∀ (rank : FifoCell V → R), (∀ a b, a ≤ b ↔ rank a ≤ rank b) →
  ∀ (cap : Nat) (xs : List (Session K V)), FifoFits cd xs →
    Block.FreshSessions (streamedCells (D := fifo V) (fifoAccess V) cd rank)
      (drained (streamed (fifo V) cd rank)) (ByteStream.new cap, (0 : Nat)) xs →
    ∃ outs s, Block.sessions (streamedCells (D := fifo V) (fifoAccess V) cd rank)
        (ByteStream.new cap, (0 : Nat)) xs = .ok (outs, s) ∧
      (∀ n, ∃ out s', (streamed (fifo V) cd rank).pop s n = .ok (out, s') ∧
        ∀ x ∈ out, ∀ y ∈ drained (streamed (fifo V) cd rank) s', Before (xs.flatMap pushedBy) x.1 y.1) ∧
      (∀ l : List (K × V), ((drained (streamed (fifo V) cd rank) s ++ l).map Prod.fst).Nodup →
        ∃ out s', (streamed (fifo V) cd rank).push s l = .ok (out, s') ∧
        ∀ x ∈ out, ∀ y ∈ drained (streamed (fifo V) cd rank) s',
          Before (xs.flatMap pushedBy ++ l.map Prod.fst) x.1 y.1)

/-- **C86, what holds**: `pop` evicts the elements pushed first; `push` never evicts: it hands back the
new elements that do not fit. -/
theorem C86_partial (cd : Codec (K × FifoCell V)) (hsmall : SmallCodec cd) (rank : FifoCell V → R)
    (hrank : ∀ a b, a ≤ b ↔ rank a ≤ rank b) (cap : Nat) (xs : List (Session K V)) (hk : FifoFits cd xs)
    (hf : Block.FreshSessions (streamedCells (D := fifo V) (fifoAccess V) cd rank)
      (drained (streamed (fifo V) cd rank)) (ByteStream.new cap, (0 : Nat)) xs) :
    ∃ outs s, Block.sessions (streamedCells (D := fifo V) (fifoAccess V) cd rank)
        (ByteStream.new cap, (0 : Nat)) xs = .ok (outs, s) ∧
      (∀ n, ∃ out s', (streamed (fifo V) cd rank).pop s n = .ok (out, s') ∧
        ∀ x ∈ out, ∀ y ∈ drained (streamed (fifo V) cd rank) s', Before (xs.flatMap pushedBy) x.1 y.1) ∧
      (∀ l : List (K × V), ∃ out s', (streamed (fifo V) cd rank).push s l = .ok (out, s') ∧
        (∀ x ∈ out, x ∈ l) ∧
        (drained (streamed (fifo V) cd rank) s' ++ out).Perm (drained (streamed (fifo V) cd rank) s ++ l)) := by
  have hcell : ∀ (N : Nat) (ts : List (Touch V)), (∀ k' v t c, IsChunkOf cd (k', ⟨v, t⟩) c →
      IsChunkOf cd (k', ⟨effect ts v, t⟩) c) →
      SameChunk (D := fifo V) (fifoAccess V) cd (fun n : Nat => n) false N ts := by
    intro N ts hts fac _ k' i c hc
    have h3 : effect ((fifoAccess V).touches fac ts) i =
        (⟨effect ts (FifoCell.value i), FifoCell.counter i⟩ : FifoCell V) := fifo_effect ts fac i
    have := hts k' (FifoCell.value i) (FifoCell.counter i) c hc
    exact h3.symm ▸ this
  obtain ⟨outs, s, h1, h2, h4⟩ := stream_history (A := fifoAccess V) (rank := rank) hsmall fifo_stamps
    fifo_accesses cap (0 : Nat) xs
    (fun x hx => by
      cases x with
      | op o => trivial
      | get k n => exact hcell _ _ (fun k' v t c h => by rw [effect_reads]; exact h)
      | getMut k us => exact hcell _ _ (fun k' v t c h => by rw [effect_touch]; exact hk k us hx k' v t c h))
    hf
  rw [show usedIn false (fun _ => false) (fun bs => bs.any id) = (pushedBy : Session K V → List K) from
    funext (pushedBy_eq _ _)] at h4
  refine ⟨outs, s, h1, ?_, ?_⟩
  · intro n
    exact stream_pop_evicts (D := fifo V) (fun a b => fifo_le a b) hrank strictMono_id h2 h4 n
  · intro l
    exact stream_push_keeps (D := fifo V) hsmall fifo_stamps h2 l

/-! ## C87: `Lru` -/

/-- Time stamps take the same number of bytes, and what is done to the values does not change the number
of bytes an element takes. -/
def LruFits (clock : Nat → T) (cd : Codec (K × LruCell V T)) (xs : List (Session K V)) : Prop :=
  (∀ k v t n c, n < (xs.map ticksOf).sum → IsChunkOf cd (k, ⟨v, t⟩) c → IsChunkOf cd (k, ⟨v, clock n⟩) c) ∧
  ∀ k us, .getMut k us ∈ xs → ∀ k' v t c, IsChunkOf cd (k', ⟨v, t⟩) c → IsChunkOf cd (k', ⟨final us v, t⟩) c

/-- Full statement of C87: on a `ByteStream` decorated with `Lru`, after any history, what is popped was
last used before what is kept. -/
def C87_full : Prop :=
  ∀ (K V T R : Type) (_ : LinearOrder K) (_ : LinearOrder T) (_ : LinearOrder R) (clock : Nat → T),
  StrictMono clock → ∀ (cd : Codec (K × LruCell V T)), SmallCodec cd →
  ∀ (rank : LruCell V T → R), (∀ a b, a ≤ b ↔ rank a ≤ rank b) →
  ∀ (cap : Nat) (xs : List (Session K V)), LruFits clock cd xs →
    Block.FreshSessions (streamedCells (D := lru V clock) (lruAccess V clock) cd rank)
      (drained (streamed (lru V clock) cd rank)) (ByteStream.new cap, (0 : Nat)) xs →
    ∃ outs s, Block.sessions (streamedCells (D := lru V clock) (lruAccess V clock) cd rank)
        (ByteStream.new cap, (0 : Nat)) xs = .ok (outs, s) ∧
      ∀ n, ∃ out s', (streamed (lru V clock) cd rank).pop s n = .ok (out, s') ∧
        ∀ x ∈ out, ∀ y ∈ drained (streamed (lru V clock) cd rank) s', Before (xs.flatMap usedBy) x.1 y.1

/-- **C87, what holds**: `pop` evicts the elements pushed or written first; `get`, and cells of `get_mut`
which are only read, do not count. -/
theorem C87_partial [LinearOrder T] (clock : Nat → T) (hm : StrictMono clock)
    (cd : Codec (K × LruCell V T)) (hsmall : SmallCodec cd) (rank : LruCell V T → R)
    (hrank : ∀ a b, a ≤ b ↔ rank a ≤ rank b) (cap : Nat) (xs : List (Session K V))
    (hk : LruFits clock cd xs)
    (hf : Block.FreshSessions (streamedCells (D := lru V clock) (lruAccess V clock) cd rank)
      (drained (streamed (lru V clock) cd rank)) (ByteStream.new cap, (0 : Nat)) xs) :
    ∃ outs s, Block.sessions (streamedCells (D := lru V clock) (lruAccess V clock) cd rank)
        (ByteStream.new cap, (0 : Nat)) xs = .ok (outs, s) ∧
      (∀ n, ∃ out s', (streamed (lru V clock) cd rank).pop s n = .ok (out, s') ∧
        ∀ x ∈ out, ∀ y ∈ drained (streamed (lru V clock) cd rank) s',
          Before (xs.flatMap writtenBy) x.1 y.1) ∧
      (∀ l : List (K × V), ∃ out s', (streamed (lru V clock) cd rank).push s l = .ok (out, s') ∧
        (∀ x ∈ out, x ∈ l) ∧
        (drained (streamed (lru V clock) cd rank) s' ++ out).Perm
          (drained (streamed (lru V clock) cd rank) s ++ l)) := by
  have hcell : ∀ (ts : List (Touch V)), (∀ k' v t c, IsChunkOf cd (k', ⟨v, t⟩) c →
      IsChunkOf cd (k', ⟨effect ts v, t⟩) c) →
      SameChunk (D := lru V clock) (lruAccess V clock) cd (fun n : Nat => n) true
        (0 + (xs.map (readings true)).sum) ts := by
    intro ts hts (fac : Nat) hN k' i c hc
    by_cases ht : ts = []
    · subst ht; exact hc
    have h1 : LruCell.value (effect ((lruAccess V clock).touches fac ts) i) = effect ts (LruCell.value i) :=
      effect_unwrap (A := lruAccess V clock) (fun _ _ _ => rfl) ts fac i
    have h2 : LruCell.timestamp (effect ((lruAccess V clock).touches fac ts) i) =
        clock (fac + ts.length - 1) := (touches_stamp (lru_accesses clock) ts fac i).2 ht
    have h3 : effect ((lruAccess V clock).touches fac ts) i =
        (⟨effect ts (LruCell.value i), clock (fac + ts.length - 1)⟩ : LruCell V T) := by
      rw [← h1, ← h2]; rfl
    have hpos : 0 < ts.length := List.length_pos_of_ne_nil ht
    have hN' : fac + ts.length ≤ 0 + (xs.map ticksOf).sum := by rw [← ticksOf_eq]; exact hN
    have g1 := hts k' (LruCell.value i) (LruCell.timestamp i) c hc
    have g2 := hk.1 k' (effect ts (LruCell.value i)) (LruCell.timestamp i) (fac + ts.length - 1) c
      (by omega) g1
    exact h3.symm ▸ g2
  obtain ⟨outs, s, h1, h2, h4⟩ := stream_history (A := lruAccess V clock) (rank := rank) hsmall
    (lru_stamps clock) (lru_accesses clock) cap (0 : Nat) xs
    (fun x hx => by
      cases x with
      | op o => trivial
      | get k n => exact hcell _ (fun k' v t c h => by rw [effect_reads]; exact h)
      | getMut k us => exact hcell _ (fun k' v t c h => by rw [effect_touch]; exact hk.2 k us hx k' v t c h))
    hf
  rw [show usedIn true (fun _ => false) (fun bs => bs.any id) = (writtenBy : Session K V → List K) from
    funext writtenBy_eq] at h4
  refine ⟨outs, s, h1, ?_, ?_⟩
  · intro n
    exact stream_pop_evicts (D := lru V clock) (fun a b => lru_le a b) hrank hm h2 h4 n
  · intro l
    exact stream_push_keeps (D := lru V clock) hsmall (lru_stamps clock) h2 l

/-! ## Concrete histories -/

/-- Check a concrete history. -/
def freshB {B : Block K V} (G : CellOps B) : B.State → List (Session K V) → Bool
  | _, [] => true
  | s, x :: xs => decide (((drained B s ++ x.given).map Prod.fst).Nodup) &&
    match Block.session G s x with
    | .ok (_, s') => freshB G s' xs
    | .panic => true

theorem fresh_of_freshB {B : Block K V} (G : CellOps B) : ∀ (xs : List (Session K V)) (s : B.State),
    freshB G s xs = true → Block.FreshSessions G (drained B) s xs
  | [], _, _ => trivial
  | x :: xs, s, h => by
    simp only [freshB, Bool.and_eq_true, decide_eq_true_eq] at h
    refine ⟨h.1, ?_⟩
    intro out s' hc
    have h2 := h.2
    rw [hc] at h2
    exact fresh_of_freshB G xs s' h2

/-- Numbers below 256 on one byte: the key, the value and the stamp. -/
def triple {I : Type} (val st : I → Nat) (mk : Nat → Nat → I) (h : ∀ i, mk (val i) (st i) = i) :
    Codec (Nat × I) where
  enc e := if e.1 < 256 ∧ val e.2 < 256 ∧ st e.2 < 256 then
    some [UInt8.ofNat e.1, UInt8.ofNat (val e.2), UInt8.ofNat (st e.2)] else none
  dec
    | a :: b :: c :: _ => some (a.toNat, mk b.toNat c.toNat)
    | _ => none
  law o b pad hb := by
    split at hb
    · rename_i he
      simp only [Option.some.injEq] at hb
      subst hb
      have h1 : (UInt8.ofNat o.1).toNat = o.1 := by simp; omega
      have h2 : (UInt8.ofNat (val o.2)).toNat = val o.2 := by simp; omega
      have h3 : (UInt8.ofNat (st o.2)).toNat = st o.2 := by simp; omega
      simp only [List.cons_append, h1, h2, h3, h]
    · simp at hb

theorem triple_small {I : Type} {val st : I → Nat} {mk : Nat → Nat → I} {h : ∀ i, mk (val i) (st i) = i} :
    SmallCodec (triple val st mk h) := by
  intro e b hb
  simp only [triple] at hb
  split at hb
  · simp only [Option.some.injEq] at hb
    subst hb
    norm_num
  · simp at hb

theorem triple_chunk {I : Type} {val st : I → Nat} {mk : Nat → Nat → I} {h : ∀ i, mk (val i) (st i) = i}
    {k : Nat} {i : I} {c : Nat} : IsChunkOf (triple val st mk h) (k, i) c ↔
      (k < 256 ∧ val i < 256 ∧ st i < 256) ∧ c = 4 := by
  have key : (k < 256 ∧ val i < 256 ∧ st i < 256) → IsChunkOf (triple val st mk h) (k, i) 4 := by
    intro he
    refine ⟨[UInt8.ofNat k, UInt8.ofNat (val i), UInt8.ofNat (st i)], 2, if_pos he, rfl, by simp, ?_,
      by simp⟩
    intro _ j hj
    simp only [List.length_cons, List.length_nil] at hj
    have : 2 ≤ j := by
      rcases j with _ | _ | j
      · simp at hj
      · simp at hj
      · omega
    have h4 : 2 ^ 2 ≤ 2 ^ j := Nat.pow_le_pow_right (by decide) this
    simpa using h4
  constructor
  · intro hc
    by_cases he : k < 256 ∧ val i < 256 ∧ st i < 256
    · exact ⟨he, hc.unique (key he)⟩
    · obtain ⟨b, -, h1, -⟩ := hc
      have : (triple val st mk h).enc (k, i) = none := if_neg he
      rw [this] at h1; simp at h1
  · rintro ⟨he, rfl⟩; exact key he

def fifoCodec : Codec (Nat × FifoCell Nat) := triple FifoCell.value FifoCell.counter FifoCell.mk fun _ => rfl
def lruCodec : Codec (Nat × LruCell Nat Nat) :=
  triple LruCell.value LruCell.timestamp LruCell.mk fun _ => rfl

/-- The order of the cells. -/
def fifoRank (c : FifoCell Nat) : Natᵒᵈ := OrderDual.toDual c.counter
def lruRank (c : LruCell Nat Nat) : Natᵒᵈ := OrderDual.toDual c.timestamp

theorem fifoRank_le (a b : FifoCell Nat) : a ≤ b ↔ fifoRank a ≤ fifoRank b := by
  rw [fifo_le]; exact OrderDual.toDual_le_toDual.symm
theorem lruRank_le (a b : LruCell Nat Nat) : a ≤ b ↔ lruRank a ≤ lruRank b := by
  rw [lru_le]; exact OrderDual.toDual_le_toDual.symm

/-- `demo2`, in which `take_multiple` is called too. -/
def demo4 : List (Session Nat Nat) := demo2 ++ [.op (.takeMultiple [2, 7])]

theorem demo4_writes {k : Nat} {us : List (Use Nat)} (h : .getMut k us ∈ demo4) {v : Nat} (hv : v < 256) :
    final us v < 256 := by
  simp only [demo4, demo2, List.cons_append, List.nil_append, List.mem_cons, List.not_mem_nil, or_false,
    reduceCtorEq, false_or, Session.getMut.injEq] at h
  rcases h with ⟨-, rfl⟩ | ⟨-, rfl⟩
  · simp [final, Use.apply]
  · exact hv

theorem demo4_fifo_fits : FifoFits fifoCodec demo4 := by
  intro k us hus k' v t c hc
  obtain ⟨h1, h2⟩ := triple_chunk.1 hc
  exact triple_chunk.2 ⟨⟨h1.1, demo4_writes hus h1.2.1, h1.2.2⟩, h2⟩

theorem demo4_lru_fits : LruFits id lruCodec demo4 := by
  constructor
  · intro k v t n c hn hc
    have hn' : n < 8 := hn
    obtain ⟨h1, h2⟩ := triple_chunk.1 hc
    exact triple_chunk.2 ⟨⟨h1.1, h1.2.1, by simp only [id]; omega⟩, h2⟩
  · intro k us hus k' v t c hc
    obtain ⟨h1, h2⟩ := triple_chunk.1 hc
    exact triple_chunk.2 ⟨⟨h1.1, demo4_writes hus h1.2.1, h1.2.2⟩, h2⟩

example := C86_partial fifoCodec triple_small fifoRank fifoRank_le 12 demo4 demo4_fifo_fits
  (fresh_of_freshB _ _ _ (by decide +kernel))

example := C87_partial (id : Nat → Nat) strictMono_id lruCodec triple_small lruRank lruRank_le 12 demo4
  demo4_lru_fits (fresh_of_freshB _ _ _ (by decide +kernel))

/-- `Fifo` pops key 1, then 2, then 3; a push in the full container is refused. -/
example : (Block.sessions (streamedCells (D := fifo Nat) (fifoAccess Nat) fifoCodec fifoRank)
    (ByteStream.new 12, (0 : Nat)) (demo2 ++ [.op (.push [(4, 40)]), .op (.pop 1), .op (.pop 1),
      .op (.pop 1)])).bind (fun x => .ok x.1) = .ok [(4, 40), (1, 10), (2, 5), (3, 30)] := by
  decide +kernel

/-- `Lru` pops key 1 first although it was read. -/
example : (Block.sessions (streamedCells (D := lru Nat (id : Nat → Nat)) (lruAccess Nat id) lruCodec lruRank)
    (ByteStream.new 12, (0 : Nat)) (demo2 ++ [.op (.pop 1), .op (.pop 1), .op (.pop 1)])).bind
      (fun x => .ok x.1) = .ok [(1, 10), (3, 30), (2, 5)] := by
  decide +kernel

/-- Check a concrete run of two steps. -/
def check2 {S α β : Type} (r : Res (α × S)) (f : S → Res (β × S)) (P : S → Bool) (Q : β → S → Bool) : Bool :=
  match r with
  | .ok (_, s) => P s && (match f s with
    | .ok (o, s') => Q o s'
    | .panic => false)
  | .panic => false

theorem of_check2 {S α β : Type} {r : Res (α × S)} {f : S → Res (β × S)} {P : S → Bool} {Q : β → S → Bool}
    (h : check2 r f P Q = true) : ∃ a s, r = .ok (a, s) ∧ P s = true ∧ ∃ o s', f s = .ok (o, s') ∧
      Q o s' = true := by
  unfold check2 at h
  cases r with
  | panic => simp at h
  | ok x =>
    obtain ⟨a, s⟩ := x
    simp only [Bool.and_eq_true] at h
    refine ⟨a, s, rfl, h.1, ?_⟩
    have h2 := h.2
    cases hf : f s with
    | panic => simp [hf] at h2
    | ok y => exact ⟨y.1, y.2, rfl, by simpa [hf] using h2⟩

theorem c86_run : ∃ outs s, Block.sessions (streamedCells (D := fifo Nat) (fifoAccess Nat) fifoCodec fifoRank)
      (ByteStream.new 4, (0 : Nat)) [.op (.push [(1, 10)])] = .ok (outs, s) ∧
    ((drained (streamed (fifo Nat) fifoCodec fifoRank) s ++ [(2, 20)]).map Prod.fst).Nodup ∧
    ∃ out s', (streamed (fifo Nat) fifoCodec fifoRank).push s [(2, 20)] = .ok (out, s') ∧
      out.map Prod.fst = [2] ∧
      (drained (streamed (fifo Nat) fifoCodec fifoRank) s').map Prod.fst = [1] := by
  have := of_check2 (r := Block.sessions (streamedCells (D := fifo Nat) (fifoAccess Nat) fifoCodec fifoRank)
      (ByteStream.new 4, (0 : Nat)) [.op (.push [(1, 10)])])
    (f := fun s => (streamed (fifo Nat) fifoCodec fifoRank).push s [(2, 20)])
    (P := fun s => decide
      ((drained (streamed (fifo Nat) fifoCodec fifoRank) s ++ [(2, 20)]).map Prod.fst).Nodup)
    (Q := fun out s' => decide (out.map Prod.fst = [2]) &&
      decide ((drained (streamed (fifo Nat) fifoCodec fifoRank) s').map Prod.fst = [1])) (by decide +kernel)
  simpa using this

/-- The new element comes out of a full container, the old one stays. -/
theorem C86_false : ¬ C86_full := by
  intro h
  obtain ⟨outs, s, h1, -, h2⟩ := h Nat Nat Natᵒᵈ inferInstance inferInstance fifoCodec triple_small fifoRank
    fifoRank_le 4 [.op (.push [(1, 10)])] (by intro k us hus; simp at hus)
    (fresh_of_freshB _ _ _ (by decide +kernel))
  obtain ⟨outs', s0, g1, g0, out0, s1, g2, g3, g4⟩ := c86_run
  obtain ⟨-, rfl⟩ : outs' = outs ∧ s0 = s := by
    have := g1.symm.trans h1
    simpa using this
  obtain ⟨out, s', p1, p2⟩ := h2 [(2, 20)] g0
  obtain ⟨rfl, rfl⟩ : out0 = out ∧ s1 = s' := by
    have := g2.symm.trans p1
    simpa using this
  obtain ⟨x, hx, ex⟩ : ∃ x ∈ out0, x.1 = 2 := by
    have : 2 ∈ out0.map Prod.fst := by rw [g3]; decide
    exact List.mem_map.1 this
  obtain ⟨y, hy, ey⟩ : ∃ y ∈ drained (streamed (fifo Nat) fifoCodec fifoRank) s1, y.1 = 1 := by
    have : 1 ∈ (drained (streamed (fifo Nat) fifoCodec fifoRank) s1).map Prod.fst := by rw [g4]; decide
    exact List.mem_map.1 this
  have := p2 x hx y hy
  rw [ex, ey] at this
  obtain ⟨a, b, e, m1, m2, m3⟩ := this
  have hb : b <:+ [1, 2] := ⟨a, e.symm⟩
  simp only [List.suffix_cons_iff, List.suffix_nil] at hb
  rcases hb with rfl | rfl | rfl
  · exact m2 (by decide)
  · exact m2 (by decide)
  · revert m3; decide

theorem c87_run : ∃ outs s, Block.sessions (streamedCells (D := lru Nat (id : Nat → Nat)) (lruAccess Nat id)
      lruCodec lruRank) (ByteStream.new 12, (0 : Nat)) demo3 = .ok (outs, s) ∧
    ∃ out s', (streamed (lru Nat (id : Nat → Nat)) lruCodec lruRank).pop s 1 = .ok (out, s') ∧
      out.map Prod.fst = [1] ∧
      (drained (streamed (lru Nat (id : Nat → Nat)) lruCodec lruRank) s').map Prod.fst = [2] := by
  have := of_check2 (r := Block.sessions (streamedCells (D := lru Nat (id : Nat → Nat)) (lruAccess Nat id)
      lruCodec lruRank) (ByteStream.new 12, (0 : Nat)) demo3)
    (f := fun s => (streamed (lru Nat (id : Nat → Nat)) lruCodec lruRank).pop s 1)
    (P := fun _ => true)
    (Q := fun out s' => decide (out.map Prod.fst = [1]) &&
      decide ((drained (streamed (lru Nat (id : Nat → Nat)) lruCodec lruRank) s').map Prod.fst = [2]))
    (by decide +kernel)
  simpa using this

/-- Two elements pushed, the first one read: it is evicted all the same. -/
theorem C87_false : ¬ C87_full := by
  intro h
  have hfits : LruFits id lruCodec demo3 := by
    constructor
    · intro k v t n c hn hc
      have hn' : n < 3 := hn
      exact demo4_lru_fits.1 k v t n c (show n < 8 by omega) hc
    · intro k us hus
      simp [demo3] at hus
  obtain ⟨outs, s, h1, h2⟩ := h Nat Nat Nat Natᵒᵈ inferInstance inferInstance inferInstance id strictMono_id
    lruCodec triple_small lruRank lruRank_le 12 demo3 hfits (fresh_of_freshB _ _ _ (by decide +kernel))
  obtain ⟨outs', s0, g1, out0, s1, g2, g3, g4⟩ := c87_run
  obtain ⟨-, rfl⟩ : outs' = outs ∧ s0 = s := by
    have := g1.symm.trans h1
    simpa using this
  obtain ⟨out, s', p1, p2⟩ := h2 1
  obtain ⟨rfl, rfl⟩ : out0 = out ∧ s1 = s' := by
    have := g2.symm.trans p1
    simpa using this
  obtain ⟨x, hx, ex⟩ : ∃ x ∈ out0, x.1 = 1 := by
    have : 1 ∈ out0.map Prod.fst := by rw [g3]; decide
    exact List.mem_map.1 this
  obtain ⟨y, hy, ey⟩ : ∃ y ∈ drained (streamed (lru Nat (id : Nat → Nat)) lruCodec lruRank) s1, y.1 = 2 := by
    have : 2 ∈ (drained (streamed (lru Nat (id : Nat → Nat)) lruCodec lruRank) s1).map Prod.fst := by
      rw [g4]; decide
    exact List.mem_map.1 this
  have := p2 x hx y hy
  rw [ex, ey, show demo3.flatMap usedBy = [1, 2, 1] from by decide +kernel] at this
  obtain ⟨a, b, e, m1, m2, m3⟩ := this
  have hb : b <:+ [1, 2, 1] := ⟨a, e.symm⟩
  simp only [List.suffix_cons_iff, List.suffix_nil] at hb
  rcases hb with rfl | rfl | rfl | rfl
  · exact m2 (by decide)
  · exact m2 (by decide)
  · exact m2 (by decide)
  · revert m3; decide

end Byoc.StreamPolicyProps
