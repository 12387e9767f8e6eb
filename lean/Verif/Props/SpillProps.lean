import Verif.Proofs.Spill
import Verif.Props.StreamPolicyProps

/-!
# C115: a memory with the `Lru` policy over a `Stream`, used as a cache
-/

namespace Byoc.SpillProps

open ArrayProps Policy PolicyProps CellProps TierProps Textbook StreamProps StreamPolicyProps CacheProps Spill

variable {K V T R : Type} [LinearOrder K]

/-! ## The reference -/

/-- Which requests are found. -/
def spillHits (n m : Nat) : List K × List K → List K → List Bool
  | _, [] => []
  | s, k :: ks => decide (k ∈ s.1 ++ s.2) :: spillHits n m (spillStep n m s k) ks

/-- The keys held after requests. -/
def spillHeld (n m : Nat) (ks : List K) : List K × List K := ks.foldl (spillStep n m) ([], [])

theorem spill_fst (n m : Nat) (s : List K × List K) (k : K) : (spillStep n m s k).1 = lruStep n s.1 k := by
  unfold spillStep lruStep
  split <;> rfl

theorem held_fst (n m : Nat) (ks : List K) : (spillHeld n m ks).1 = (recent ks).take n := by
  rw [← held_lru]
  induction ks using List.reverseRecOn with
  | nil => rfl
  | append_singleton ks k ih =>
    have h1 : spillHeld n m (ks ++ [k]) = spillStep n m (spillHeld n m ks) k := by simp [spillHeld]
    have h2 : held (lruStep n) (ks ++ [k]) = lruStep n (held (lruStep n) ks) k := by simp [held]
    rw [h1, h2, spill_fst, ih]

theorem held_snd_le (n m : Nat) (ks : List K) : (spillHeld n m ks).2.length ≤ m := by
  induction ks using List.reverseRecOn with
  | nil => simp [spillHeld]
  | append_singleton ks k ih =>
    have h1 : spillHeld n m (ks ++ [k]) = spillStep n m (spillHeld n m ks) k := by simp [spillHeld]
    rw [h1]
    unfold spillStep
    split
    · exact ih
    · simp

theorem recent_length_le (ks : List K) (k : K) : (recent ks).length ≤ (recent (ks ++ [k])).length := by
  rw [recent_snoc, List.length_cons]
  have := List.length_erase (l := recent ks) (a := k)
  split at this <;> omega

/-- Nothing is lost while the keys requested fit. -/
theorem held_all (n m : Nat) (ks : List K) (h : (recent ks).length ≤ n + m) :
    ((spillHeld n m ks).1 ++ (spillHeld n m ks).2).Perm (recent ks) := by
  induction ks using List.reverseRecOn with
  | nil => exact List.Perm.refl _
  | append_singleton ks k ih =>
    have ih := ih ((recent_length_le ks k).trans h)
    have h1 : spillHeld n m (ks ++ [k]) = spillStep n m (spillHeld n m ks) k := by simp [spillHeld]
    have hm := held_snd_le n m ks
    rw [h1, recent_snoc]
    rw [recent_snoc] at h
    generalize spillHeld n m ks = s at ih hm
    obtain ⟨f, b⟩ := s
    simp only at ih hm
    unfold spillStep
    split
    · rename_i hk
      simp only at hk ⊢
      rw [List.cons_append]
      refine List.Perm.cons _ ?_
      rw [← List.erase_append_left _ hk]
      exact ih.erase k
    · rename_i hk
      simp only at hk ⊢
      have hp : ((k :: f).take n ++ (b.erase k ++ (k :: f).drop n)).Perm (k :: (recent ks).erase k) := by
        have e1 : ((k :: f).take n ++ (b.erase k ++ (k :: f).drop n)).Perm ((k :: f) ++ b.erase k) := by
          conv_rhs => rw [← List.take_append_drop n (k :: f)]
          rw [List.append_assoc]
          exact List.Perm.append_left _ List.perm_append_comm
        refine e1.trans ?_
        rw [List.cons_append]
        refine List.Perm.cons _ ?_
        rw [← List.erase_append_right _ hk]
        exact ih.erase k
      have hlen := hp.length_eq
      have hle : (b.erase k ++ (k :: f).drop n).length ≤ m := by
        rw [List.length_append] at hlen
        rcases Nat.lt_or_ge (k :: f).length n with hlt | hge
        · rw [List.drop_eq_nil_of_le hlt.le, List.append_nil]
          exact (List.length_erase_le).trans hm
        · rw [List.length_take_of_le hge] at hlen
          omega
      rw [List.take_of_length_le hle]
      exact hp

theorem spillHits_append (n m : Nat) (pre ks : List K) : ∀ s,
    spillHits n m s (pre ++ ks) = spillHits n m s pre ++ spillHits n m (pre.foldl (spillStep n m) s) ks := by
  induction pre with
  | nil => intro s; rfl
  | cons k pre ih => intro s; simp [spillHits, ih]

theorem spillHits_length (n m : Nat) (ks : List K) : ∀ s, (spillHits n m s ks).length = ks.length := by
  induction ks with
  | nil => intro s; rfl
  | cons k ks ih => intro s; simp [spillHits, ih]

/-- Requests for the keys used last are found. -/
theorem hits_recent (n m : Nat) (ks : List K) : ∀ pre : List K,
    List.Forall₂ (fun a b : Bool => a = true → b = true) (among n pre ks)
      (spillHits n m (spillHeld n m pre) ks) := by
  induction ks with
  | nil => intro pre; exact .nil
  | cons k ks ih =>
    intro pre
    have h : spillStep n m (spillHeld n m pre) k = spillHeld n m (pre ++ [k]) := by simp [spillHeld]
    rw [among, spillHits, h]
    refine .cons ?_ (ih _)
    simp only [decide_eq_true_eq]
    intro hm
    rw [← held_fst n m] at hm
    exact List.mem_append_left _ hm

theorem mem_recent {ks : List K} {k : K} : k ∈ recent ks ↔ k ∈ ks := by
  induction ks using List.reverseRecOn with
  | nil => simp [recent]
  | append_singleton ks x ih =>
    rw [recent_snoc, List.mem_cons, List.mem_append, List.mem_singleton]
    by_cases hx : k = x
    · simp [hx]
    · rw [List.mem_erase_of_ne hx, ih]; simp [hx]

/-- Which requests are for a key requested before. -/
def again : List K → List K → List Bool
  | _, [] => []
  | pre, k :: ks => decide (k ∈ pre) :: again (pre ++ [k]) ks

theorem recent_length_append (pre ks : List K) : (recent pre).length ≤ (recent (pre ++ ks)).length := by
  induction ks using List.reverseRecOn with
  | nil => simp
  | append_singleton ks k ih =>
    rw [← List.append_assoc]
    exact ih.trans (recent_length_le _ _)

theorem hits_again (n m : Nat) (ks : List K) : ∀ pre : List K, (recent (pre ++ ks)).length ≤ n + m →
    spillHits n m (spillHeld n m pre) ks = again pre ks := by
  induction ks with
  | nil => intro pre _; rfl
  | cons k ks ih =>
    intro pre hl
    have h : spillStep n m (spillHeld n m pre) k = spillHeld n m (pre ++ [k]) := by simp [spillHeld]
    rw [again, spillHits, h, ih _ (by simpa using hl)]
    congr 1
    have := held_all n m pre ((recent_length_append pre _).trans hl)
    simp only [this.mem_iff, mem_recent]

/-- Once the store is full of keys nobody requests, it serves no purpose. -/
theorem hits_stuck (n m : Nat) (ks : List K) : ∀ s : List K × List K, s.2.length = m → (∀ k ∈ ks, k ∉ s.2) →
    spillHits n m s ks = hits (lruStep n) s.1 ks ∧ (ks.foldl (spillStep n m) s).2 = s.2 := by
  induction ks with
  | nil => intro s _ _; exact ⟨rfl, rfl⟩
  | cons k ks ih =>
    intro s hl hk
    have h2 : (spillStep n m s k).2 = s.2 := by
      unfold spillStep
      split
      · rfl
      · simp only
        rw [List.erase_of_not_mem (hk k (by simp)), List.take_left' hl]
    obtain ⟨g1, g2⟩ := ih (spillStep n m s k) (by rw [h2]; exact hl) (fun x hx => by rw [h2]; exact hk x (by simp [hx]))
    refine ⟨?_, by rw [List.foldl_cons, g2, h2]⟩
    rw [spillHits, hits, g1, spill_fst]
    congr 1
    have : k ∉ s.2 := hk k (by simp)
    simp [this]

/-! ## The stream -/

/-- A stream whose elements all take `c` bytes. -/
theorem stream_shelf [LinearOrder R] {I : Type} {cd : Codec (K × I)} (hsmall : SmallCodec cd) (rank : I → R)
    (c cap : Nat) (hc : 0 < c) :
    Shelf (byteStreamBy cd rank)
      (fun s : ByteStream => ByteStream.Inv cd s ∧ s.capacity = cap ∧ ∀ e ∈ ByteStream.stored cd s, ByteStream.csz cd e = c)
      (ByteStream.stored cd) (fun e => cd.enc e ≠ none ∧ ByteStream.csz cd e = c) (cap / c) := by
  have hsize : ∀ s : ByteStream, ByteStream.Inv cd s → (∀ e ∈ ByteStream.stored cd s, ByteStream.csz cd e = c) →
      s.size = (ByteStream.stored cd s).length * c := by
    intro s hs hall
    rw [hs.size]
    generalize ByteStream.stored cd s = l at hall
    induction l with
    | nil => simp
    | cons a l ih =>
      rw [total_cons, hall a (by simp), ih fun e he => hall e (by simp [he]), List.length_cons]
      ring
  constructor
  · rintro s ⟨h1, h2, h3⟩
    have := h1.bounded
    rw [hsize s h1 h3, h2] at this
    exact (Nat.le_div_iff_mul_le hc).2 this
  · rintro s k ⟨h1, h2, h3⟩
    obtain ⟨o, s', g1, g2, g3, g4⟩ := ByteStream.take_spec s h1 k
    refine ⟨o, s', g1, ⟨g2, g3.trans h2, fun e he => h3 e ?_⟩, g4⟩
    cases o with
    | none => exact g4.2.mem_iff.1 he
    | some x => exact g4.2.mem_iff.1 (List.mem_cons_of_mem _ he)
  · rintro s ⟨h1, h2, h3⟩
    obtain ⟨out, s', g1, g2, g3, g4, g5, -⟩ := ByteStream.push_spec hsmall s h1 []
    have : out = [] := List.eq_nil_iff_forall_not_mem.2 fun e he => nomatch (g5 e he).1
    subst this
    simp only [List.append_nil] at g4
    exact ⟨s', g1, ⟨g2, g3.trans h2, fun e he => h3 e (g4.mem_iff.1 he)⟩, g4⟩
  · rintro s x ⟨h1, h2, h3⟩ ⟨f1, f2⟩ hlt
    obtain ⟨out, s', g1, g2, g3, g4, g5, g6⟩ := ByteStream.push_spec hsmall s h1 [x]
    have hfit := (Nat.le_div_iff_mul_le hc).1 (show (ByteStream.stored cd s).length + 1 ≤ cap / c from hlt)
    have : out = [] := g6 (by simpa using f1) (by
      rw [hsize s h1 h3, h2, total_cons, total_nil, f2]
      linarith)
    subst this
    simp only [List.append_nil] at g4
    refine ⟨s', g1, ⟨g2, g3.trans h2, fun e he => ?_⟩, g4⟩
    rcases List.mem_append.1 (g4.mem_iff.1 he) with h | h
    · exact h3 e h
    · rw [List.mem_singleton.1 h]; exact f2
  · rintro s x ⟨h1, h2, h3⟩ ⟨f1, f2⟩ hge
    obtain ⟨out, s', g1, g2, g3, g4, g5, g6⟩ := ByteStream.push_spec hsmall s h1 [x]
    have hall : ∀ e ∈ ByteStream.stored cd s', ByteStream.csz cd e = c := by
      intro e he
      rcases List.mem_append.1 (g4.mem_iff.1 (List.mem_append_left _ he)) with h | h
      · exact h3 e h
      · rw [List.mem_singleton.1 h]; exact f2
    have hlen := g4.length_eq
    simp only [List.length_append, List.length_cons, List.length_nil] at hlen
    have hout : out = [x] := by
      match out, hlen, g5 with
      | [], hlen, _ =>
        exfalso
        have hb := g2.bounded
        rw [hsize s' g2 hall, g3, h2] at hb
        have := (Nat.le_div_iff_mul_le hc).2 hb
        simp only [List.length_nil] at hlen
        omega
      | [y], _, g5 => rw [List.mem_singleton.1 (g5 y (by simp)).1]
      | y :: z :: out, hlen, g5 =>
        exfalso
        obtain ⟨e1, e2⟩ := g5 y (by simp)
        rw [List.mem_singleton.1 e1] at e2
        rcases e2 with e2 | e2
        · exact f1 e2
        · have hb := h1.bounded
          rw [hsize s h1 h3, h2] at hb
          rw [hsize s' g2 hall, h2, f2] at e2
          simp only [List.length_cons] at hlen
          have : (ByteStream.stored cd s').length + 1 ≤ (ByteStream.stored cd s).length := by omega
          have := Nat.mul_le_mul_right c this
          rw [Nat.add_mul, one_mul] at this
          omega
    subst hout
    refine ⟨s', g1, ⟨g2, g3.trans h2, hall⟩, ?_⟩
    exact (List.perm_append_right_iff _).1 g4

/-! ## Histories -/

section
variable [LinearOrder T] [LinearOrder R]

/-- The container: memory in tiers over a stream, with `Lru`. -/
abbrev spilledOf (clock : Nat → T) (t : Stack K (LruCell V T)) (cd : Codec (K × LruCell V T))
    (rank : LruCell V T → R) : Block K V := spilled clock t (byteStreamBy cd rank)

theorem cached_all {clock : Nat → T} (hm : StrictMono clock) {t : Stack K (LruCell V T)} (ht : t.Tiered)
    {B : Block K (LruCell V T)} {Ib : B.State → Prop} {eb : B.State → List (K × LruCell V T)}
    {Fit : K × LruCell V T → Prop} {m : Nat} (hB : Shelf B Ib eb Fit m) {fetch : K → V} {n : Nat}
    (hn : 0 < n) (ks : List K) : ∀ (s : (t.block.State × B.State) × Nat) (l : List K × List K),
    (∀ k, k ∈ l.1 ∨ k ∈ ks → ∀ j < s.2 + ks.length, Fit (k, ⟨fetch k, clock j⟩)) →
    Spills clock t B Ib eb fetch n s l →
    ∃ s' : (t.block.State × B.State) × Nat,
      cachedAll (B := spilled clock t B) (spilledCells clock t B) fetch s ks =
        .ok ((spillHits n m l ks).zip (ks.map fetch), s') ∧
      Spills clock t B Ib eb fetch n s' (ks.foldl (spillStep n m) l) := by
  induction ks with
  | nil => intro s l _ hs; exact ⟨s, rfl, hs⟩
  | cons k ks ih =>
    intro s l hfit hs
    simp only [List.length_cons] at hfit
    obtain ⟨s1, h1, h2, h3⟩ := Spill.cached_step hm ht hB hn
      (fun x hx j hj => hfit x (.inl hx) j (by omega)) hs k
    obtain ⟨s2, h4, h5⟩ := ih s1 _ (fun x hx j hj => by
      refine hfit x ?_ j (by omega)
      rcases hx with hx | hx
      · rw [spill_fst] at hx
        unfold lruStep at hx
        split at hx
        · rcases List.mem_cons.1 hx with rfl | hx
          · exact .inr (by simp)
          · exact .inl (List.mem_of_mem_erase hx)
        · rcases List.mem_cons.1 (List.mem_of_mem_take hx) with rfl | hx
          · exact .inr (by simp)
          · exact .inl hx
      · exact .inr (by simp [hx])) h3
    exact ⟨s2, cachedAll_cons (B := spilled clock t B) h1 h4, h5⟩

omit [LinearOrder K] [LinearOrder T] in
theorem strip_cells {clock : Nat → T} {fetch : K → V} {τ : K → Nat} (l : List K) :
    List.map (strip (lru V clock)) (l.map (cellOf clock fetch τ)) = l.map fun k => (k, fetch k) := by
  induction l with
  | nil => rfl
  | cons k l ih => exact congrArg (List.cons (k, fetch k)) ih

/-- Every element the requests may store takes `c` bytes of the stream. -/
def Uniform (clock : Nat → T) (cd : Codec (K × LruCell V T)) (fetch : K → V) (ks : List K) (c : Nat) : Prop :=
  ∀ k ∈ ks, ∀ j < ks.length, IsChunkOf cd (k, ⟨fetch k, clock j⟩) c

/-- Full statement of C115: the memory over the stream, used as a cache, answers as the textbook LRU cache of
the total capacity. -/
def C115_full : Prop :=
  ∀ (K V T R : Type) (_ : LinearOrder K) (_ : LinearOrder T) (_ : LinearOrder R) (clock : Nat → T),
  StrictMono clock → ∀ (t : Stack K (LruCell V T)), t.Tiered → ∀ (s₀ : t.block.State), t.Init s₀ →
  t.FrontRoom s₀ → 0 < t.block.capacity s₀ →
  ∀ (cd : Codec (K × LruCell V T)), SmallCodec cd → ∀ (rank : LruCell V T → R) (cap c : Nat) (fetch : K → V)
    (ks : List K), 0 < c → Uniform clock cd fetch ks c →
  ∃ s, cachedAll (B := spilledOf clock t cd rank) (spilledCells clock t (byteStreamBy cd rank)) fetch
      ((s₀, ByteStream.new cap), (0 : Nat)) ks =
    .ok ((hits (lruStep (t.block.capacity s₀ + cap / c)) [] ks).zip (ks.map fetch), s)

/-- **C115, partial.** Memory in tiers (`Exclusive`s of `Array`s counting elements, to any depth; a single
`Array` too) of `n` elements over a `Stream` with room for `m` elements of the same class of chunks, decorated
with `Lru` and used as a cache: no call panics, every answer is the value fetched, and requests are answered
from the cache, and elements stored in the memory and in the stream, as in the reference: the memory is a
textbook LRU cache, what falls out of it goes to the stream while there is room and is lost otherwise. -/
theorem C115_partial (clock : Nat → T) (hm : StrictMono clock) (t : Stack K (LruCell V T)) (ht : t.Tiered)
    (s₀ : t.block.State) (hi : t.Init s₀) (hroom : t.FrontRoom s₀) (hn : 0 < t.block.capacity s₀)
    (cd : Codec (K × LruCell V T)) (hsmall : SmallCodec cd) (rank : LruCell V T → R) (cap c : Nat)
    (fetch : K → V) (ks : List K) (hc : 0 < c) (hu : Uniform clock cd fetch ks c) :
    ∃ s : (t.block.State × ByteStream) × Nat,
      cachedAll (B := spilledOf clock t cd rank) (spilledCells clock t (byteStreamBy cd rank)) fetch
        ((s₀, ByteStream.new cap), (0 : Nat)) ks =
      .ok ((spillHits (t.block.capacity s₀) (cap / c) ([], []) ks).zip (ks.map fetch), s) ∧
      ((t.elems s.1.1).map (strip (lru V clock))).Perm
        ((spillHeld (t.block.capacity s₀) (cap / c) ks).1.map fun k => (k, fetch k)) ∧
      ((ByteStream.stored cd s.1.2).map (strip (lru V clock))).Perm
        ((spillHeld (t.block.capacity s₀) (cap / c) ks).2.map fun k => (k, fetch k)) := by
  have hnil := Stack.init_elems t s₀ hi
  have hfit : ∀ k ∈ ks, ∀ j < ks.length, cd.enc (k, (⟨fetch k, clock j⟩ : LruCell V T)) ≠ none ∧
      ByteStream.csz cd (k, (⟨fetch k, clock j⟩ : LruCell V T)) = c := by
    intro k hk j hj
    have h1 := hu k hk j hj
    have hne : cd.enc (k, (⟨fetch k, clock j⟩ : LruCell V T)) ≠ none := by
      obtain ⟨b, i, hb, -⟩ := h1
      rw [hb]; simp
    obtain ⟨i, h2, -⟩ := isChunkOf_csz hsmall _ hne
    exact ⟨hne, h2.unique h1⟩
  obtain ⟨s, h1, τ, -, -, -, -, h5, h6, -⟩ := cached_all (B := byteStreamBy cd rank) hm ht
    (stream_shelf hsmall rank c cap hc) (fetch := fetch) hn ks ((s₀, ByteStream.new cap), (0 : Nat)) ([], [])
    (fun k hk j hj => by
      rcases hk with hk | hk
      · cases hk
      · exact hfit k hk j (by simpa using hj))
    ⟨fun _ => 0, Stack.init_inv True t s₀ hi fun _ => hroom, Stack.init_ordered t s₀ hi, rfl,
      ⟨ByteStream.new_inv cap, rfl, by simp [ByteStream.new_stored]⟩, by simp [hnil],
      by simp [ByteStream.new_stored], by simp, by simp, by simp, by simp⟩
  refine ⟨s, h1, ?_, ?_⟩
  · exact (h5.map (strip (lru V clock))).trans (List.Perm.of_eq (strip_cells _))
  · exact (h6.map (strip (lru V clock))).trans (List.Perm.of_eq (strip_cells _))

/-- **C115, the keys used last.** A request for one of the `n` keys used last, `n` being the capacity of the
memory, is answered from the cache, whatever is in the stream. -/
theorem C115_recent_partial (clock : Nat → T) (hm : StrictMono clock) (t : Stack K (LruCell V T)) (ht : t.Tiered)
    (s₀ : t.block.State) (hi : t.Init s₀) (hroom : t.FrontRoom s₀) (hn : 0 < t.block.capacity s₀)
    (cd : Codec (K × LruCell V T)) (hsmall : SmallCodec cd) (rank : LruCell V T → R) (cap c : Nat)
    (fetch : K → V) (ks : List K) (hc : 0 < c) (hu : Uniform clock cd fetch ks c) :
    ∃ found s, cachedAll (B := spilledOf clock t cd rank) (spilledCells clock t (byteStreamBy cd rank)) fetch
        ((s₀, ByteStream.new cap), (0 : Nat)) ks = .ok (found.zip (ks.map fetch), s) ∧
      List.Forall₂ (fun a b : Bool => a = true → b = true) (among (t.block.capacity s₀) [] ks) found := by
  obtain ⟨s, h1, -⟩ := C115_partial clock hm t ht s₀ hi hroom hn cd hsmall rank cap c fetch ks hc hu
  exact ⟨_, s, h1, hits_recent _ _ ks []⟩

/-- **C115, few keys.** As long as the keys requested are at most as many as the memory and the stream have
room for, each of them is fetched only once. -/
theorem C115_few_keys_partial (clock : Nat → T) (hm : StrictMono clock) (t : Stack K (LruCell V T)) (ht : t.Tiered)
    (s₀ : t.block.State) (hi : t.Init s₀) (hroom : t.FrontRoom s₀) (hn : 0 < t.block.capacity s₀)
    (cd : Codec (K × LruCell V T)) (hsmall : SmallCodec cd) (rank : LruCell V T → R) (cap c : Nat)
    (fetch : K → V) (ks : List K) (hc : 0 < c) (hu : Uniform clock cd fetch ks c)
    (hfew : (recent ks).length ≤ t.block.capacity s₀ + cap / c) :
    ∃ s, cachedAll (B := spilledOf clock t cd rank) (spilledCells clock t (byteStreamBy cd rank)) fetch
        ((s₀, ByteStream.new cap), (0 : Nat)) ks = .ok ((again [] ks).zip (ks.map fetch), s) := by
  obtain ⟨s, h1, -⟩ := C115_partial clock hm t ht s₀ hi hroom hn cd hsmall rank cap c fetch ks hc hu
  refine ⟨s, ?_⟩
  rw [← hits_again (t.block.capacity s₀) (cap / c) ks [] (by simpa using hfew)]
  exact h1

/-- **C115, a useless stream.** When, after the requests `pre`, the stream is full, later requests `ks` for none
of the keys in the stream are answered as if there were no stream: by the LRU cache of the capacity of the
memory, and the stream does not change. -/
theorem C115_useless_stream (clock : Nat → T) (hm : StrictMono clock) (t : Stack K (LruCell V T)) (ht : t.Tiered)
    (s₀ : t.block.State) (hi : t.Init s₀) (hroom : t.FrontRoom s₀) (hn : 0 < t.block.capacity s₀)
    (cd : Codec (K × LruCell V T)) (hsmall : SmallCodec cd) (rank : LruCell V T → R) (cap c : Nat)
    (fetch : K → V) (pre ks : List K) (hc : 0 < c) (hu : Uniform clock cd fetch (pre ++ ks) c) :
    ∃ (ans : List (Bool × V)) (s : (t.block.State × ByteStream) × Nat)
      (found : List Bool) (s' : (t.block.State × ByteStream) × Nat),
      cachedAll (B := spilledOf clock t cd rank) (spilledCells clock t (byteStreamBy cd rank)) fetch
        ((s₀, ByteStream.new cap), (0 : Nat)) pre = .ok (ans, s) ∧
      cachedAll (B := spilledOf clock t cd rank) (spilledCells clock t (byteStreamBy cd rank)) fetch
        ((s₀, ByteStream.new cap), (0 : Nat)) (pre ++ ks) = .ok (ans ++ found.zip (ks.map fetch), s') ∧
      ((ByteStream.stored cd s.1.2).length = cap / c → (∀ k ∈ ks, ¬ HasKey (ByteStream.stored cd s.1.2) k) →
        found = hits (lruStep (t.block.capacity s₀)) ((recent pre).take (t.block.capacity s₀)) ks ∧
        ((ByteStream.stored cd s'.1.2).map (strip (lru V clock))).Perm
          ((ByteStream.stored cd s.1.2).map (strip (lru V clock)))) := by
  obtain ⟨s, h1, -, h3⟩ := C115_partial clock hm t ht s₀ hi hroom hn cd hsmall rank cap c fetch pre hc
    (fun k hk j hj => hu k (by simp [hk]) j (by simp; omega))
  obtain ⟨s', g1, -, g3⟩ := C115_partial clock hm t ht s₀ hi hroom hn cd hsmall rank cap c fetch (pre ++ ks) hc hu
  rw [spillHits_append, List.map_append, List.zip_append (by rw [List.length_map, spillHits_length])] at g1
  refine ⟨_, s, _, s', h1, g1, fun hl hk => ?_⟩
  have hk2 : (ByteStream.stored cd s.1.2).map Prod.fst = ((ByteStream.stored cd s.1.2).map (strip (lru V clock))).map Prod.fst :=
    (keys_strip (D := lru V clock) _).symm
  have hkeys : ((ByteStream.stored cd s.1.2).map Prod.fst).Perm (spillHeld (t.block.capacity s₀) (cap / c) pre).2 := by
    rw [hk2]
    refine (h3.map Prod.fst).trans (List.Perm.of_eq ?_)
    rw [List.map_map]
    exact List.map_id _
  obtain ⟨e1, e2⟩ := hits_stuck (t.block.capacity s₀) (cap / c) ks (spillHeld (t.block.capacity s₀) (cap / c) pre)
    (by rw [← hkeys.length_eq, List.length_map]; exact hl)
    (fun k hks hmem => by
      obtain ⟨⟨k', v⟩, h5, rfl⟩ := List.mem_map.1 (hkeys.mem_iff.2 hmem)
      exact hk k' hks ⟨v, h5⟩)
  refine ⟨?_, ?_⟩
  · rw [held_fst] at e1
    exact e1
  · have h6 : (spillHeld (t.block.capacity s₀) (cap / c) (pre ++ ks)).2 = (spillHeld (t.block.capacity s₀) (cap / c) pre).2 := by
      rw [← e2]
      simp [spillHeld]
    rw [h6] at g3
    exact g3.trans h3.symm

end

/-! ## Concrete caches -/

/-- The keys and values used below. -/
theorem small_uniform (ks : List Nat) (h : ∀ k ∈ ks, k < 25) (hl : ks.length ≤ 256) :
    Uniform (id : Nat → Nat) lruCodec (fun k => k * 10) ks 4 := by
  intro k hk j hj
  refine triple_chunk.2 ⟨⟨?_, ?_, ?_⟩, rfl⟩
  · have := h k hk; omega
  · have := h k hk; show k * 10 < 256; omega
  · show j < 256; omega

/-- One element in memory, one in the stream: 2 is lost although it was used just before 3. -/
theorem C115_false : ¬ C115_full := by
  intro h
  have hu := small_uniform [1, 2, 3, 2] (by decide) (by decide)
  obtain ⟨s, h1⟩ := h Nat Nat Nat Natᵒᵈ inferInstance inferInstance inferInstance id strictMono_id
    (Stack.array (fun _ => 1) lruSorter lruSorter) lruSorter_array (Array.new 1) ⟨1, rfl⟩ trivial Nat.zero_lt_one
    lruCodec triple_small lruRank 4 4 (fun k => k * 10) [1, 2, 3, 2] (by decide) hu
  obtain ⟨s', h2, -⟩ := C115_partial id strictMono_id
    (Stack.array (fun _ => 1) lruSorter lruSorter) lruSorter_array (Array.new 1) ⟨1, rfl⟩ trivial Nat.zero_lt_one
    lruCodec triple_small lruRank 4 4 (fun k => k * 10) [1, 2, 3, 2] (by decide) hu
  have h3 := h1.symm.trans h2
  injection h3 with h3
  have h4 : (hits (lruStep 2) [] [1, 2, 3, 2]).zip [10, 20, 30, 20] =
      (spillHits 1 1 ([], []) [1, 2, 3, 2]).zip [10, 20, 30, 20] := congrArg Prod.fst h3
  exact absurd h4 (by decide +kernel)

/-- Two tiers in memory, of total capacity 3, over a stream of two elements. -/
example := C115_partial (id : Nat → Nat) strictMono_id (twoTiers lruSorter)
  ⟨lruSorter_array, lruSorter_array⟩ (Array.new 1, Array.new 2) ⟨⟨1, rfl⟩, ⟨2, rfl⟩⟩
  ⟨Nat.zero_lt_one, trivial, trivial⟩ (by decide) lruCodec triple_small lruRank 8 4 (fun k => k * 10)
  [1, 2, 3, 4, 1, 5, 6, 2] (by decide) (small_uniform _ (by decide) (by decide))

example : spillHits 3 2 ([], []) [1, 2, 3, 4, 1, 5, 6, 2, 4] =
    [false, false, false, false, true, false, false, true, false] := by decide +kernel

/-- The same computed from the model of the code. -/
example : (do
      let (ans, _) ← cachedAll (B := spilledOf id (twoTiers lruSorter) lruCodec lruRank)
        (spilledCells id (twoTiers lruSorter) (byteStreamBy lruCodec lruRank)) (fun k => k * 10)
        (((Array.new 1, Array.new 2), ByteStream.new 8), (0 : Nat)) [1, 2, 3, 4, 1, 5, 6, 2, 4]
      return ans.map Prod.fst : Res (List Bool)) =
    .ok [false, false, false, false, true, false, false, true, false] := by
  decide +kernel

/-- The stream is full of keys nobody requests after one, two, three (memory of one, stream of two). -/
example := C115_useless_stream (id : Nat → Nat) strictMono_id (Stack.array (fun _ => 1) lruSorter lruSorter)
  lruSorter_array (Array.new 1) ⟨1, rfl⟩ trivial Nat.zero_lt_one lruCodec triple_small lruRank 8 4
  (fun k => k * 10) [1, 2, 3] [4, 5, 4, 5] (by decide) (small_uniform _ (by decide) (by decide))

example : (spillHeld 1 2 [1, 2, 3]).2 = [1, 2] := by decide +kernel

example := C115_few_keys_partial (id : Nat → Nat) strictMono_id (Stack.array (fun _ => 1) lruSorter lruSorter)
  lruSorter_array (Array.new 2) ⟨2, rfl⟩ trivial Nat.zero_lt_two lruCodec triple_small lruRank 8 4
  (fun k => k * 10) [1, 2, 3, 4, 1, 2, 3, 4] (by decide) (small_uniform _ (by decide) (by decide)) (by decide)

end Byoc.SpillProps
