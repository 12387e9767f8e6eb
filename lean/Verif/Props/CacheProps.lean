import Verif.Proofs.Recent
import Verif.Props.TierProps

/-!
# C94, C95: containers used as caches
-/

namespace Byoc.CacheProps

open ArrayProps Policy PolicyProps CellProps TierProps Textbook

variable {K V T : Type} [LinearOrder K]

/-- A cached lookup: look the key up and read it; if it is missing, fetch the value elsewhere and push it.
The answer: was it found, and the value. -/
def cached {B : Block K V} (G : CellOps B) (fetch : K → V) (s : B.State) (k : K) :
    Res ((Bool × V) × B.State) := do
  let (o, s) ← G.get s k [Use.read.touch]
  match o with
  | some v => return ((true, v), s)
  | none => do
    let (_, s) ← B.push s [(k, fetch k)]
    return ((false, fetch k), s)

/-- Cached lookups, one after the other. -/
def cachedAll {B : Block K V} (G : CellOps B) (fetch : K → V) (s : B.State) :
    List K → Res (List (Bool × V) × B.State)
  | [] => .ok ([], s)
  | k :: ks => do
    let (a, s) ← cached G fetch s k
    let (as, s) ← cachedAll G fetch s ks
    return (a :: as, s)

omit [LinearOrder K] in
theorem cached_hit {B : Block K V} {G : CellOps B} {fetch : K → V} {s s' : B.State} {k : K} {v : V}
    (h : G.get s k [Use.read.touch] = .ok (some v, s')) : cached G fetch s k = .ok ((true, v), s') := by
  simp [cached, h]

omit [LinearOrder K] in
theorem cached_miss {B : Block K V} {G : CellOps B} {fetch : K → V} {s s' s'' : B.State} {k : K} {out}
    (h : G.get s k [Use.read.touch] = .ok (none, s')) (h' : B.push s' [(k, fetch k)] = .ok (out, s'')) :
    cached G fetch s k = .ok ((false, fetch k), s'') := by
  simp [cached, h, h']

omit [LinearOrder K] in
theorem cachedAll_cons {B : Block K V} {G : CellOps B} {fetch : K → V} {s s' s'' : B.State} {k : K}
    {ks : List K} {a as} (h : cached G fetch s k = .ok (a, s')) (h' : cachedAll G fetch s' ks = .ok (as, s'')) :
    cachedAll G fetch s (k :: ks) = .ok (a :: as, s'') := by
  simp [cachedAll, h, h']

/-! ## One lookup -/

section
variable [LinearOrder T] {D : Decoration V} [LE D.Item] {A : Access D} {stamp : D.Item → T}
  {clock : Nat → T} {read : D.Factory → Nat} {touch : Bool}

/-- The container holds the keys of `l`, with the values fetched, and its policy ranks them as `l` does. -/
def Holds (stamp : D.Item → T) (clock : Nat → T) (read : D.Factory → Nat) (t : Stack K D.Item)
    (fetch : K → V) (c : Nat) (s : t.block.State × D.Factory) (l : List K) : Prop :=
  ∃ h : List K, t.Inv True s.1 ∧ Ranked stamp clock (read s.2) (t.elems s.1) h ∧ t.Ordered s.1 ∧
    Newest h l ∧ l.length ≤ c ∧ t.block.capacity s.1 = c ∧
    ((t.elems s.1).map (strip D)).Perm (l.map fun k => (k, fetch k))

/-- What the policy makes of a request. -/
def stepOf (touch : Bool) (c : Nat) (l : List K) (k : K) : List K :=
  if touch then lruStep c l k else fifoStep c l k

omit [LinearOrder K] [LE D.Item] in
theorem keys_of_perm {l : List (K × D.Item)} {ks : List K} {fetch : K → V}
    (h : (l.map (strip D)).Perm (ks.map fun k => (k, fetch k))) : (l.map Prod.fst).Perm ks := by
  have := h.map Prod.fst
  rw [keys_strip] at this
  simpa [Function.comp_def] using this

theorem cached_step {t : Stack K D.Item} (ht : t.Tiered) (hD : Stamps D stamp clock read)
    (hA : Accesses D A stamp clock read touch) (hle : ∀ a b : D.Item, a ≤ b ↔ stamp b ≤ stamp a)
    (hm : StrictMono clock) (htouch : touch = true ∨ ∀ s, t.Ordered s) (fetch : K → V) (c : Nat)
    {s : t.block.State × D.Factory} {l : List K} (hs : Holds stamp clock read t fetch c s l) (k : K) :
    ∃ s', cached (B := (Stack.decorator D A t).block) (decoratorCells A (cellsOf t.gets)) fetch s k =
        .ok ((decide (k ∈ l), fetch k), s') ∧
      Holds stamp clock read t fetch c s' (stepOf touch c l k) := by
  obtain ⟨s, fac⟩ := s
  obtain ⟨h, i1, i2, i3, i4, i5, i6, i7⟩ := hs
  obtain ⟨w1, w2, w3, w4, -⟩ := Stack.Tiered.shape t ht
  have hL := t.lawful True w1 w2
  have hG := t.getLawful w1 w4
  have hkeys := keys_of_perm i7
  have hn : ((t.elems s).map Prod.fst).Nodup := hkeys.nodup_iff.2 i4.1
  have hget := hG.get.cellLaw
  obtain ⟨o, s1, g1, g2, g3, g4⟩ := hget s k (A.touches fac [Use.read.touch]) ⟨i1, hn⟩ trivial
  obtain ⟨o', s1', r1, -, -, r4, -, r6⟩ := ranked_cell hA hget (k := k) (ts := [Use.read.touch]) (fac := fac)
    ⟨i1, hn⟩ trivial hn i2
  replace r1 : (fun s k ts => t.gets.get s k (effect ts)) s k (A.touches fac [Use.read.touch]) = .ok (o', s1') := r1
  rw [g1] at r1
  cases r1
  have hcell : (decoratorCells A (cellsOf t.gets)).get (s, fac) k [Use.read.touch] =
      .ok (o.map D.unwrap, (s1, if o.isSome then A.ticks fac [Use.read.touch] else fac)) := by
    show (do let (o, c) ← (cellsOf t.gets).get s k (A.touches fac [Use.read.touch]); _ : Res _) = _
    rw [show (cellsOf t.gets).get s k (A.touches fac [Use.read.touch]) = .ok (o, s1) from g1]
    rfl
  have ho1 : t.Ordered s1 := by
    rcases htouch with htouch | hall
    · refine ordered_session (s := (s, fac)) (x := .get k 1) (out := [])
        (s' := (s1, if o.isSome then A.ticks fac [Use.read.touch] else fac)) ht hD hA hle hm.monotone i1 hn i2 i3
        ⟨htouch, one_ne_zero⟩ ?_
      have : Block.session (decoratorCells A (cellsOf t.gets)) (s, fac) (.get k 1) =
        (do let (_, s) ← (decoratorCells A (cellsOf t.gets)).get (s, fac) k [Use.read.touch]; pure ([], s)) := rfl
      rw [this, hcell]
      rfl
    · exact hall _
  cases o with
  | some i =>
    obtain ⟨rest, p1, p2⟩ := g4
    simp only [if_true] at p2
    have hval : D.unwrap (effect (A.touches fac [Use.read.touch]) i) = D.unwrap i := hA.1 _ _ _
    have hmem : (k, D.unwrap i) ∈ l.map fun k => (k, fetch k) :=
      i7.mem_iff.1 (List.mem_map.2 ⟨(k, i), p1.mem_iff.2 (by simp), rfl⟩)
    obtain ⟨k', hk', hkv⟩ := List.mem_map.1 hmem
    simp only [Prod.mk.injEq] at hkv
    obtain ⟨rfl, hv⟩ := hkv
    have hsame : ((t.elems s1).map (strip D)).Perm ((t.elems s).map (strip D)) := by
      refine (p2.map (strip D)).trans ((p1.map (strip D)).trans ?_).symm
      simp only [List.map_cons, strip, hval]
      exact List.Perm.refl _
    refine ⟨(s1, A.ticks fac [Use.read.touch]), ?_, ?_⟩
    · rw [hv, show decide (k' ∈ l) = true from decide_eq_true hk']
      exact cached_hit (B := (Stack.decorator D A t).block) hcell
    · cases touch with
      | true =>
        refine ⟨h ++ [k'], g2.1, by simpa using r6, ho1, ?_, ?_, g3.trans i6, ?_⟩
        · simpa [stepOf, lruStep, hk'] using i4.move
        · simp only [stepOf, lruStep, hk', if_true, List.length_cons]
          rw [List.length_erase_of_mem hk']
          have := List.length_pos_of_mem hk'
          omega
        · simp only [stepOf, lruStep, hk', if_true]
          exact (hsame.trans i7).trans ((List.perm_cons_erase hk').map _)
      | false =>
        refine ⟨h, g2.1, by simpa using r6, ho1, ?_, ?_, g3.trans i6, ?_⟩ <;>
          simp only [stepOf, fifoStep, hk', if_true, Bool.false_eq_true, if_false]
        · exact i4
        · exact i5
        · exact hsame.trans i7
  | none =>
    have hk : k ∉ l := by
      intro hk
      have : k ∈ (t.elems s).map Prod.fst := hkeys.mem_iff.2 hk
      obtain ⟨⟨k', i⟩, h1, rfl⟩ := List.mem_map.1 this
      exact g4.1 ⟨i, h1⟩
    have i7' := ((g4.2.map (strip D)).trans i7)
    have hkeys' := keys_of_perm i7'
    have hn' : ((t.elems s1).map Prod.fst).Nodup := hkeys'.nodup_iff.2 i4.1
    set h' := h ++ (if touch then [k] else []) with hh'
    have r6' : Ranked stamp clock (read fac) (t.elems s1) h' := by simpa [hh'] using r6
    have hnew : Newest h' l := by
      cases touch with
      | true => exact i4.miss hk
      | false => simpa [hh'] using i4
    have hfresh : ((t.elems s1).map Prod.fst ++ [(k, fetch k)].map Prod.fst).Nodup := by
      rw [List.nodup_append]
      refine ⟨hn', by simp, ?_⟩
      intro a ha b hb
      simp only [List.map_cons, List.map_nil, List.mem_singleton] at hb
      rintro rfl
      exact hk (hkeys'.mem_iff.1 (hb ▸ ha))
    obtain ⟨out, s2, q1, q2, q3, q4⟩ := hL.push s1 (wrapAll D fac [(k, fetch k)]).1 g2.1 trivial
    have hpush : (Stack.decorator D A t).block.push (s1, fac) [(k, fetch k)] =
        .ok (out.map (strip D), (s2, (wrapAll D fac [(k, fetch k)]).2)) := by
      simp [Stack.block, decorator, q1]
    have hcount := (t.slots True w1 w3).pushExact _ _ _ _ g2.1 q1
    rw [(t.slots True w1 w3).size _ g2.1, g3.trans i6] at hcount
    obtain ⟨out', s2', e1, e2, -, e4⟩ := ranked_session (C := t.block) (G := cellsOf t.gets)
      (Inv := fun s => t.Inv True s ∧ ((t.elems s).map Prod.fst).Nodup) (x := .op (.push [(k, fetch k)]))
      (s := (s1, fac)) hD hA
      (Lawful.keeps hL.distinctKeys fun s l hs hn => by
        obtain ⟨out, s', g1, g2, g3, g4⟩ := hL.push s l hs.1 trivial
        exact ⟨out, s', g1, ⟨g2, nodup_left g4 hn⟩, g3, g4⟩) (fun s hs => hs.2)
      hG.get.cellLaw hG.getMut.cellLaw ⟨g2.1, hn'⟩ trivial hfresh r6'
    have e3 := ordered_session (s := (s1, fac)) (x := .op (.push [(k, fetch k)])) ht hD hA hle hm.monotone g2.1 hn' r6' ho1 trivial e1
    have hses : Block.session (decoratorCells A (cellsOf t.gets)) (s1, fac) (.op (.push [(k, fetch k)])) =
      .ok (out.map (strip D), (s2, (wrapAll D fac [(k, fetch k)]).2)) := hpush
    rw [hses] at e1
    cases e1
    obtain ⟨out2, s3, v1, v2⟩ := (evicts_tiers (A := A) (s := (s1, fac)) ht hD hle hm g2.1 hn' r6' ho1).2 [(k, fetch k)] (by
      have h2 : (((t.elems s1).map (strip D)) ++ [(k, fetch k)]).map Prod.fst =
        (t.elems s1).map Prod.fst ++ [(k, fetch k)].map Prod.fst := by rw [List.map_append, keys_strip]
      exact h2 ▸ hfresh)
    rw [hpush] at v1
    cases v1
    -- what is kept
    have hw : (wrapAll D fac [(k, fetch k)]).1.map (strip D) = [(k, fetch k)] := by
      simp [wrapAll, strip, hD.1]
    have hall : ((t.elems s2).map (strip D) ++ out.map (strip D)).Perm
        (l.map (fun k => (k, fetch k)) ++ [(k, fetch k)]) := by
      rw [← List.map_append]
      refine (q4.map (strip D)).trans ?_
      rw [List.map_append, hw]
      exact i7'.append_right _
    have hkept : ((t.elems s2).map Prod.fst).Perm ((k :: l).take c) := by
      refine kept_of_evicted (h := h') (out := out.map Prod.fst) (keys := (t.elems s1).map Prod.fst) hnew i5 hkeys' hk
        ?_ ?_ ?_
      · have := q4.map Prod.fst
        rw [List.map_append, List.map_append, wrapAll_keys] at this
        exact this
      · rw [List.length_map, List.length_map, hcount]
        rfl
      · intro x hx y hy
        obtain ⟨x', hx', rfl⟩ := List.mem_map.1 hx
        obtain ⟨y', hy', rfl⟩ := List.mem_map.1 hy
        exact v2 (strip D x') (List.mem_map_of_mem hx') (strip D y') (List.mem_map_of_mem hy')
    refine ⟨(s2, (wrapAll D fac [(k, fetch k)]).2), ?_, ?_⟩
    · rw [show decide (k ∈ l) = false from decide_eq_false hk]
      exact cached_miss (B := (Stack.decorator D A t).block) hcell hpush
    · have hst : stepOf touch c l k = (k :: l).take c := by
        cases touch <;> simp [stepOf, lruStep, fifoStep, hk]
      rw [hst]
      refine ⟨h' ++ [k], e2.1, e4, e3, hnew.enter c hk, by simp, q3.trans (g3.trans i6), ?_⟩
      -- values: every element stored is a key with the value fetched
      have hv : ∀ e ∈ (t.elems s2).map (strip D), e = (e.1, fetch e.1) := by
        intro e he
        have := hall.mem_iff.1 (List.mem_append_left _ he)
        simp only [List.mem_append, List.mem_map, List.mem_singleton] at this
        rcases this with ⟨a, -, rfl⟩ | rfl <;> rfl
      have h1 : (t.elems s2).map (strip D) = (((t.elems s2).map (strip D)).map Prod.fst).map fun k => (k, fetch k) := by
        rw [List.map_map]
        conv_lhs => rw [← List.map_id ((t.elems s2).map (strip D))]
        exact List.map_congr_left fun e he => hv e he
      rw [h1, keys_strip]
      exact hkept.map _

theorem cached_all {t : Stack K D.Item} (ht : t.Tiered) (hD : Stamps D stamp clock read)
    (hA : Accesses D A stamp clock read touch) (hle : ∀ a b : D.Item, a ≤ b ↔ stamp b ≤ stamp a)
    (hm : StrictMono clock) (htouch : touch = true ∨ ∀ s, t.Ordered s) (fetch : K → V) (c : Nat) (ks : List K) :
    ∀ (s : t.block.State × D.Factory) (l : List K), Holds stamp clock read t fetch c s l →
    ∃ s', cachedAll (B := (Stack.decorator D A t).block) (decoratorCells A (cellsOf t.gets)) fetch s ks =
        .ok ((hits (stepOf touch c) l ks).zip (ks.map fetch), s') ∧
      Holds stamp clock read t fetch c s' (ks.foldl (stepOf touch c) l) := by
  induction ks with
  | nil => intro s l hs; exact ⟨s, rfl, hs⟩
  | cons k ks ih =>
    intro s l hs
    obtain ⟨s1, h1, h2⟩ := cached_step ht hD hA hle hm htouch fetch c hs k
    obtain ⟨s2, h3, h4⟩ := ih s1 _ h2
    refine ⟨s2, ?_, h4⟩
    exact cachedAll_cons (B := (Stack.decorator D A t).block) h1 h3

omit [LinearOrder T] in
theorem holds_init {t : Stack K D.Item} (fetch : K → V) {s : t.block.State} (fac : D.Factory)
    (hi : t.Init s) (hroom : t.FrontRoom s) :
    Holds stamp clock read t fetch (t.block.capacity s) (s, fac) [] := by
  have hnil := Stack.init_elems t s hi
  exact ⟨[], Stack.init_inv True t s hi fun _ => hroom, by simpa [hnil] using Ranked.nil,
    Stack.init_ordered t s hi, ⟨List.nodup_nil, by simp, List.Pairwise.nil⟩, by simp, rfl, by simp [hnil]⟩

end

/-! ## C94: `Lru` -/

/-- **C94.** A container in tiers (`Exclusive`s of `Array`s counting elements, to any depth; a single `Array`
too) decorated with `Lru` and used as a cache: no call panics, every answer is the value fetched, a request is
answered from the cache exactly when the textbook LRU cache of the same total capacity holds the key, and what
is stored is exactly what this cache holds. -/
theorem C94_lru_is_textbook [LinearOrder T] (clock : Nat → T) (hm : StrictMono clock)
    (t : Stack K (LruCell V T)) (ht : t.Tiered) (s₀ : t.block.State) (hi : t.Init s₀)
    (hroom : t.FrontRoom s₀) (fetch : K → V) (ks : List K) :
    ∃ s, cachedAll (lruCells clock t) fetch (s₀, (0 : Nat)) ks =
        .ok ((hits (lruStep (t.block.capacity s₀)) [] ks).zip (ks.map fetch), s) ∧
      ((lruOf clock t).elems s).Perm
        ((held (lruStep (t.block.capacity s₀)) ks).map fun k => (k, fetch k)) := by
  obtain ⟨s, h1, h, -, -, -, -, -, -, h2⟩ := cached_all (D := lru V clock) (t := t) ht (lru_stamps clock)
    (lru_accesses clock) (fun a b => lru_le a b) hm (.inl rfl) fetch (t.block.capacity s₀) ks
    (s₀, (0 : Nat)) [] (holds_init (D := lru V clock) fetch (0 : Nat) hi hroom)
  exact ⟨s, h1, h2⟩

/-- **C94, in terms of the requests alone.** A request is answered from the cache exactly when its key is
among the `capacity()` keys requested last, and these are the keys stored. -/
theorem C94_lru_most_recent [LinearOrder T] (clock : Nat → T) (hm : StrictMono clock)
    (t : Stack K (LruCell V T)) (ht : t.Tiered) (s₀ : t.block.State) (hi : t.Init s₀)
    (hroom : t.FrontRoom s₀) (fetch : K → V) (ks : List K) :
    ∃ ans s, cachedAll (lruCells clock t) fetch (s₀, (0 : Nat)) ks = .ok (ans, s) ∧
      ans = (among (t.block.capacity s₀) [] ks).zip (ks.map fetch) ∧
      (((lruOf clock t).elems s).map Prod.fst).Perm ((recent ks).take (t.block.capacity s₀)) := by
  obtain ⟨s, h1, h2⟩ := C94_lru_is_textbook clock hm t ht s₀ hi hroom fetch ks
  refine ⟨_, s, h1, ?_, ?_⟩
  · rw [← hits_lru]; rfl
  · rw [← held_lru]
    simpa [Function.comp_def] using h2.map Prod.fst

/-- **C94, larger caches.** Whatever their numbers of tiers, of two such caches the one with the larger total
capacity answers from the cache every request the other one does. -/
theorem C94_larger_is_better [LinearOrder T] (clock : Nat → T) (hm : StrictMono clock)
    (t t' : Stack K (LruCell V T)) (ht : t.Tiered) (ht' : t'.Tiered) (s₀ : t.block.State)
    (s₀' : t'.block.State) (hi : t.Init s₀) (hi' : t'.Init s₀') (hroom : t.FrontRoom s₀)
    (hroom' : t'.FrontRoom s₀') (hc : t.block.capacity s₀ ≤ t'.block.capacity s₀') (fetch : K → V)
    (ks : List K) :
    ∃ ans s ans' s', cachedAll (lruCells clock t) fetch (s₀, (0 : Nat)) ks = .ok (ans, s) ∧
      cachedAll (lruCells clock t') fetch (s₀', (0 : Nat)) ks = .ok (ans', s') ∧
      List.Forall₂ (fun a a' : Bool × V => a.1 = true → a'.1 = true) ans ans' := by
  obtain ⟨s, h1, -⟩ := C94_lru_is_textbook clock hm t ht s₀ hi hroom fetch ks
  obtain ⟨s', h1', -⟩ := C94_lru_is_textbook clock hm t' ht' s₀' hi' hroom' fetch ks
  refine ⟨_, s, _, s', h1, h1', ?_⟩
  have h := hits_lru_mono hc ks []
  rw [show held (lruStep (t.block.capacity s₀)) ([] : List K) = [] from rfl,
    show held (lruStep (t'.block.capacity s₀')) ([] : List K) = [] from rfl] at h
  clear h1 h1'
  revert h
  generalize hits (lruStep (t.block.capacity s₀)) [] ks = a
  generalize hits (lruStep (t'.block.capacity s₀')) [] ks = b
  intro h
  generalize ks.map fetch = vs
  induction h generalizing vs with
  | nil => simp
  | cons hab _ ih =>
    cases vs with
    | nil => simp
    | cons v vs => exact .cons hab (ih vs)

/-! ## C95: `Fifo` -/

/-- **C95.** An `Array` counting elements decorated with `Fifo` and used as a cache: no call panics, every
answer is the value fetched, a request is answered from the cache exactly when the textbook FIFO cache of the
same capacity holds the key, and what is stored is exactly what this cache holds. -/
theorem C95_fifo_is_textbook (srt srtS : Sorter (K × FifoCell V)) (h1 : ByValue srt) (h2 : ByValue srtS)
    (c : Nat) (fetch : K → V) (ks : List K) :
    ∃ s, cachedAll (fifoCells (Stack.array (fun _ => 1) srt srtS)) fetch (Array.new c, (0 : Nat)) ks =
        .ok ((hits (fifoStep c) [] ks).zip (ks.map fetch), s) ∧
      ((fifoOf (Stack.array (fun _ => 1) srt srtS)).elems s).Perm
        ((held (fifoStep c) ks).map fun k => (k, fetch k)) := by
  obtain ⟨s, g1, h, -, -, -, -, -, -, g2⟩ := cached_all (D := fifo V) (t := Stack.array (fun _ => 1) srt srtS)
    ⟨fun _ => rfl, h1, h2⟩ fifo_stamps fifo_accesses (fun a b => fifo_le a b) strictMono_id
    (.inr fun _ => trivial) fetch c ks (Array.new c, (0 : Nat)) []
    (holds_init (D := fifo V) (t := Stack.array (fun _ => 1) srt srtS) fetch (0 : Nat)
      ⟨c, rfl⟩ trivial)
  exact ⟨s, g1, g2⟩

/-- **C95, larger caches.** A larger `Fifo` cache may answer fewer requests (Belady): with capacity 3 three
requests are answered from the cache, with capacity 4 only two. -/
theorem C95_belady :
    let ks := [1, 2, 3, 4, 1, 2, 5, 1, 2, 3, 4, 5]
    let found (c : Nat) : Res Nat := do
      let (ans, _) ← cachedAll (fifoCells (Stack.array (fun _ => 1) fifoSorter fifoSorter))
        (fun k : Nat => k * 10) (Array.new c, (0 : Nat)) ks
      return (ans.filter Prod.fst).length
    found 3 = .ok 3 ∧ found 4 = .ok 2 := by
  decide +kernel

/-! ## Concrete caches -/

/-- Three tiers of capacity 2, 1 and 2. -/
example (ks : List Nat) := C94_lru_is_textbook (id : Nat → Nat) strictMono_id (threeTiers lruSorter)
  ⟨lruSorter_array, lruSorter_array, lruSorter_array⟩ ((Array.new 2, {}), (Array.new 1, Array.new 2))
  ⟨⟨⟨2, rfl⟩, rfl⟩, ⟨1, rfl⟩, ⟨2, rfl⟩⟩ ⟨Nat.zero_lt_two, trivial, Nat.zero_lt_one, trivial, trivial⟩
  (fun k => k * 10) ks

/-- Two tiers, of total capacity 3, find what a single Array of capacity 2 finds. -/
example (ks : List Nat) := C94_larger_is_better (id : Nat → Nat) strictMono_id
  (Stack.array (fun _ => 1) lruSorter lruSorter) (twoTiers lruSorter) lruSorter_array
  ⟨lruSorter_array, lruSorter_array⟩ (Array.new 2) (Array.new 1, Array.new 2) ⟨2, rfl⟩ ⟨⟨1, rfl⟩, ⟨2, rfl⟩⟩
  trivial ⟨Nat.zero_lt_one, trivial, trivial⟩ (by decide) (fun k => k * 10) ks

example : (do
      let (ans, _) ← cachedAll (lruCells id (twoTiers lruSorter)) (fun k => k * 10)
        ((Array.new 1, Array.new 2), (0 : Nat)) [1, 2, 3, 1, 4, 2, 1]
      return ans : Res (List (Bool × Nat))) =
    .ok [(false, 10), (false, 20), (false, 30), (true, 10), (false, 40), (false, 20), (true, 10)] := by
  decide +kernel

example := C95_fifo_is_textbook fifoSorter fifoSorter fifoSorter_byValue fifoSorter_byValue 3 (fun k => k * 10)
  [1, 2, 3, 1, 4, 1]

end Byoc.CacheProps
