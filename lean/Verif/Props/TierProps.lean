import Verif.Proofs.Tiers
import Verif.Props.CellProps

/-!
# C92, C93: eviction policies on containers in tiers (`Exclusive`)
-/

namespace Byoc.TierProps

open Policy PolicyProps CellProps

variable {K V T : Type} [LinearOrder K]

/-- What `pop`, or a further `push` of new keys, evicts was last used before what is kept, `h` being the
keys used so far. -/
def EvictsOldest (B : Block K V) (elems : B.State → List (K × V)) (s : B.State) (h : List K) : Prop :=
  (∀ n, ∃ out s', B.pop s n = .ok (out, s') ∧ ∀ x ∈ out, ∀ y ∈ elems s', Before h x.1 y.1) ∧
  (∀ l : List (K × V), ((elems s ++ l).map Prod.fst).Nodup →
    ∃ out s', B.push s l = .ok (out, s') ∧
      ∀ x ∈ out, ∀ y ∈ elems s', Before (h ++ l.map Prod.fst) x.1 y.1)

section
variable [LinearOrder T] {D : Decoration V} [LE D.Item] {A : Access D} {stamp : D.Item → T}
  {clock : Nat → T} {read : D.Factory → Nat} {touch : Bool}

omit [LinearOrder K] [LE D.Item] in
theorem keys_strip (l : List (K × D.Item)) : (l.map (strip D)).map Prod.fst = l.map Prod.fst := by
  simp [strip, Function.comp_def]

/-- `pop`, in terms of stamps. -/
theorem pop_tiers {t : Stack K D.Item} (ht : t.Tiered) (hle : ∀ a b : D.Item, a ≤ b ↔ stamp b ≤ stamp a)
    {s : t.block.State × D.Factory} (hs : t.Inv True s.1) (ho : t.Ordered s.1) (n : Nat) :
    ∃ out s', (decorator D t.block).pop s n = .ok (out.map (strip D), (s', s.2)) ∧
      (t.elems s' ++ out).Perm (t.elems s.1) ∧
      ∀ x ∈ out, ∀ y ∈ t.elems s', stamp x.2 ≤ stamp y.2 := by
  obtain ⟨w1, w2, -⟩ := Stack.Tiered.shape t ht
  obtain ⟨out, s1, h1, -, -, h4, -⟩ := (t.lawful True w1 w2).pop s.1 n hs
  exact ⟨out, s1, by simp [decorator, h1], h4,
    fun x hx y hy => (hle _ _).1 (((t.aged True ht).pop _ _ _ _ hs ho h1).2 x hx y hy)⟩

theorem evicts_tiers {t : Stack K D.Item} (ht : t.Tiered) (hD : Stamps D stamp clock read)
    (hle : ∀ a b : D.Item, a ≤ b ↔ stamp b ≤ stamp a) (hm : StrictMono clock)
    {s : t.block.State × D.Factory} {h : List K} (hs : t.Inv True s.1)
    (hn : ((t.elems s.1).map Prod.fst).Nodup) (hr : Ranked stamp clock (read s.2) (t.elems s.1) h)
    (ho : t.Ordered s.1) :
    EvictsOldest (Stack.decorator D A t).block (Stack.decorator D A t).elems s h := by
  constructor
  · intro n
    obtain ⟨out, s1, h1, h4, h5⟩ := pop_tiers ht hle hs ho n
    refine ⟨_, _, h1, fun x hx y hy => ?_⟩
    obtain ⟨x', hx', rfl⟩ := List.mem_map.1 hx
    obtain ⟨y', hy', rfl⟩ := List.mem_map.1 (show y ∈ (t.elems s1).map (strip D) from hy)
    exact hr.before hm (mem_of_out h4 hx') (mem_of_kept h4 hy') (ne_of_split h4 hn hx' hy') (h5 x' hx' y' hy')
  · intro l hl
    obtain ⟨w1, w2, -⟩ := Stack.Tiered.shape t ht
    have hl' : ((t.elems s.1).map Prod.fst ++ l.map Prod.fst).Nodup := by
      rw [List.map_append] at hl
      have hl2 : (((t.elems s.1).map (strip D)).map Prod.fst ++ l.map Prod.fst).Nodup := hl
      rwa [keys_strip] at hl2
    obtain ⟨out, s1, h1, -, -, h4⟩ := (t.lawful True w1 w2).push s.1 (wrapAll D s.2 l).1 hs trivial
    have hr' := hD.wrapAll l s.2 (t.elems s.1) h hl' hr
    have hn' : ((t.elems s.1 ++ (wrapAll D s.2 l).1).map Prod.fst).Nodup := by
      rw [List.map_append, wrapAll_keys]; exact hl'
    have hnew : ∀ x ∈ (wrapAll D s.2 l).1, ∀ y ∈ t.elems s.1, x.2 ≤ y.2 := by
      intro x hx y hy
      obtain ⟨j, j1, j2⟩ := wrapAll_stamps hD l s.2 x hx
      obtain ⟨idx, i1, -⟩ := hr
      rw [hle, j2, (i1 y hy).1]
      exact hm.monotone (le_trans (i1 y hy).2.1.le j1)
    have h5 := ((t.aged True ht).push _ _ _ _ hs ho hnew h1).2
    refine ⟨out.map (strip D), (s1, (wrapAll D s.2 l).2), by simp [Stack.block, decorator, h1],
      fun x hx y hy => ?_⟩
    obtain ⟨x', hx', rfl⟩ := List.mem_map.1 hx
    obtain ⟨y', hy', rfl⟩ := List.mem_map.1 (show y ∈ (t.elems s1).map (strip D) from hy)
    exact hr'.before hm (mem_of_out h4 hx') (mem_of_kept h4 hy') (ne_of_split h4 hn' hx' hy')
      ((hle _ _).1 (h5 x' hx' y' hy'))

/-- The state of a container in tiers, new, after a history. -/
theorem history {t : Stack K D.Item} (ht : t.Tiered) (hD : Stamps D stamp clock read)
    (hA : Accesses D A stamp clock read touch) (hle : ∀ a b : D.Item, a ≤ b ↔ stamp b ≤ stamp a)
    (hm : Monotone clock) (xs : List (Session K V)) (hxs : ∀ x ∈ xs, Clean touch x)
    {s : t.block.State} (fac : D.Factory) (hi : t.Init s) (hroom : t.FrontRoom s)
    (hf : Block.FreshSessions (decoratorCells A (cellsOf t.gets)) (Stack.decorator D A t).elems (s, fac) xs) :
    ∃ out s', Block.sessions (decoratorCells A (cellsOf t.gets)) (s, fac) xs = .ok (out, s') ∧
      t.Inv True s'.1 ∧ ((t.elems s'.1).map Prod.fst).Nodup ∧
      Ranked stamp clock (read s'.2) (t.elems s'.1)
        (xs.flatMap (usedIn touch (fun _ => true) (fun _ => true))) ∧ t.Ordered s'.1 := by
  have hnil := Stack.init_elems t s hi
  obtain ⟨out, s', h⟩ := tiers_history ht hD hA hle hm xs hxs (s, fac) []
    (Stack.init_inv True t s hi fun _ => hroom) (by simp [hnil]) (by simpa [hnil] using Ranked.nil)
    (Stack.init_ordered t s hi) hf
  exact ⟨out, s', by simpa using h⟩

end

/-! ## C92: `Lru` -/

/-- The container `t` decorated with `Lru`, and its cells. -/
abbrev lruOf (clock : Nat → T) (t : Stack K (LruCell V T)) : Stack K V :=
  Stack.decorator (lru V clock) (lruAccess V clock) t

abbrev lruCells (clock : Nat → T) (t : Stack K (LruCell V T)) : CellOps (lruOf clock t).block :=
  decoratorCells (D := lru V clock) (lruAccess V clock) (cellsOf t.gets)

/-- **C92, full statement.** After any history, an `Exclusive` (of containers in tiers) decorated with
`Lru` evicts what was used least recently, of all its tiers. -/
def C92_full : Prop :=
  ∀ (K V T : Type) [LinearOrder K] [LinearOrder T] (clock : Nat → T), StrictMono clock →
    ∀ t : Stack K (LruCell V T), t.Tiered → ∀ s₀, t.Init s₀ → t.FrontRoom s₀ →
    ∀ xs : List (Session K V),
      Block.FreshSessions (lruCells clock t) (lruOf clock t).elems (s₀, (0 : Nat)) xs →
      ∃ outs s, Block.sessions (lruCells clock t) (s₀, (0 : Nat)) xs = .ok (outs, s) ∧
        EvictsOldest (lruOf clock t).block (lruOf clock t).elems s (xs.flatMap usedBy)

/-- Every cell handed out is used. -/
def CellsUsed (xs : List (Session K V)) : Prop :=
  ∀ x ∈ xs, match x with
    | .op _ => True
    | .get _ n => n ≠ 0
    | .getMut _ us => us ≠ []

omit [LinearOrder K] in
theorem clean_of_used {xs : List (Session K V)} (h : CellsUsed xs) : ∀ x ∈ xs, Clean true x := by
  intro x hx
  have := h x hx
  cases x with
  | op o => trivial
  | get k n => exact ⟨rfl, this⟩
  | getMut k us => exact ⟨rfl, this⟩

/-- **C92 (partial).** If every cell handed out by a lookup is used: after any history no call panics,
and everything evicted by `pop`, or by a further `push`, from any tier, was last used (pushed, read or
written) before everything kept in all the tiers.  Missing: histories with lookups whose cell is not
used, for which it is false (`C92_false`). -/
theorem C92_lru_tiers_partial [LinearOrder T] (clock : Nat → T) (hm : StrictMono clock)
    (t : Stack K (LruCell V T)) (ht : t.Tiered) (s₀ : t.block.State) (hi : t.Init s₀)
    (hroom : t.FrontRoom s₀) (xs : List (Session K V)) (hused : CellsUsed xs)
    (hf : Block.FreshSessions (lruCells clock t) (lruOf clock t).elems (s₀, (0 : Nat)) xs) :
    ∃ outs s, Block.sessions (lruCells clock t) (s₀, (0 : Nat)) xs = .ok (outs, s) ∧
      EvictsOldest (lruOf clock t).block (lruOf clock t).elems s (xs.flatMap usedBy) := by
  obtain ⟨outs, s, h1, h2, h3, h4, h5⟩ := history (D := lru V clock) (t := t) ht (lru_stamps clock)
    (lru_accesses clock) (fun a b => lru_le a b) hm.monotone xs (clean_of_used hused) (0 : Nat) hi hroom hf
  rw [show usedIn true (fun _ => true) (fun _ => true) = (usedBy : Session K V → List K) from
    funext usedBy_eq] at h4
  exact ⟨outs, s, h1, evicts_tiers (D := lru V clock) (t := t) ht (lru_stamps clock)
    (fun a b => lru_le a b) hm h2 h3 h4 h5⟩

/-- **C92 (partial), any monotone clock** (`Clock`: two readings may be equal): everything evicted by `pop`
was last used before everything kept, unless the clock showed the same time at both last uses. -/
theorem C92_lru_tiers_monotone_partial [LinearOrder T] (clock : Nat → T) (hm : Monotone clock)
    (t : Stack K (LruCell V T)) (ht : t.Tiered) (s₀ : t.block.State) (hi : t.Init s₀)
    (hroom : t.FrontRoom s₀) (xs : List (Session K V)) (hused : CellsUsed xs)
    (hf : Block.FreshSessions (lruCells clock t) (lruOf clock t).elems (s₀, (0 : Nat)) xs) :
    ∃ outs s, Block.sessions (lruCells clock t) (s₀, (0 : Nat)) xs = .ok (outs, s) ∧
      ∀ n, ∃ out s', (lruOf clock t).block.pop s n = .ok (out, s') ∧
        ∀ x ∈ out, ∀ y ∈ (lruOf clock t).elems s', Before (xs.flatMap usedBy) x.1 y.1 ∨
          ∃ cx cy : LruCell V T, (x.1, cx) ∈ t.elems s.1 ∧ (y.1, cy) ∈ t.elems s.1 ∧
            cx.timestamp = cy.timestamp := by
  obtain ⟨outs, s, h1, h2, h3, h4, h5⟩ := history (D := lru V clock) (t := t) ht (lru_stamps clock)
    (lru_accesses clock) (fun a b => lru_le a b) hm xs (clean_of_used hused) (0 : Nat) hi hroom hf
  rw [show usedIn true (fun _ => true) (fun _ => true) = (usedBy : Session K V → List K) from
    funext usedBy_eq] at h4
  refine ⟨outs, s, h1, fun n => ?_⟩
  obtain ⟨out, s1, g1, g4, g5⟩ := pop_tiers (D := lru V clock) (t := t) ht (fun a b => lru_le a b) h2 h5 n
  refine ⟨_, _, g1, fun x hx y hy => ?_⟩
  obtain ⟨x', hx', rfl⟩ := List.mem_map.1 hx
  obtain ⟨y', hy', rfl⟩ := List.mem_map.1 (show y ∈ (t.elems s1).map (strip (lru V clock)) from hy)
  rcases lt_or_eq_of_le (g5 x' hx' y' hy') with hlt | heq
  · exact .inl (h4.before_of_lt hm (mem_of_out g4 hx') (mem_of_kept g4 hy') hlt)
  · exact .inr ⟨_, _, mem_of_out g4 hx', mem_of_kept g4 hy', heq⟩

/-! ## C93: `Fifo` -/

/-- The container `t` decorated with `Fifo`, and its cells. -/
abbrev fifoOf (t : Stack K (FifoCell V)) : Stack K V := Stack.decorator (fifo V) (fifoAccess V) t

abbrev fifoCells (t : Stack K (FifoCell V)) : CellOps (fifoOf t).block :=
  decoratorCells (D := fifo V) (fifoAccess V) (cellsOf t.gets)

/-- **C93, full statement.** After any history, an `Exclusive` (of containers in tiers) decorated with
`Fifo` evicts what was pushed first, of all its tiers. -/
def C93_full : Prop :=
  ∀ (K V : Type) [LinearOrder K] (t : Stack K (FifoCell V)), t.Tiered → ∀ s₀, t.Init s₀ → t.FrontRoom s₀ →
    ∀ xs : List (Session K V), Block.FreshSessions (fifoCells t) (fifoOf t).elems (s₀, (0 : Nat)) xs →
      ∃ outs s, Block.sessions (fifoCells t) (s₀, (0 : Nat)) xs = .ok (outs, s) ∧
        EvictsOldest (fifoOf t).block (fifoOf t).elems s (xs.flatMap pushedBy)

/-- **C93 (partial).** Without lookups (`get`, `get_mut`): after any history, everything evicted by `pop`,
or by a further `push`, was pushed before everything kept in all the tiers.  Missing: histories with
lookups, for which it is false (`C93_false`). -/
theorem C93_fifo_tiers_partial (t : Stack K (FifoCell V)) (ht : t.Tiered) (s₀ : t.block.State)
    (hi : t.Init s₀) (hroom : t.FrontRoom s₀) (ops : List (Op K V))
    (hf : Block.FreshSessions (fifoCells t) (fifoOf t).elems (s₀, (0 : Nat)) (ops.map .op)) :
    ∃ outs s, Block.sessions (fifoCells t) (s₀, (0 : Nat)) (ops.map .op) = .ok (outs, s) ∧
      EvictsOldest (fifoOf t).block (fifoOf t).elems s (ops.flatMap fun o => o.given.map Prod.fst) := by
  obtain ⟨outs, s, h1, h2, h3, h4, h5⟩ := history (D := fifo V) (t := t) ht fifo_stamps
    fifo_accesses (fun a b => fifo_le a b) monotone_id (ops.map .op)
    (fun x hx => by obtain ⟨o, -, rfl⟩ := List.mem_map.1 hx; trivial) (0 : Nat) hi hroom hf
  rw [List.flatMap_map] at h4
  exact ⟨outs, s, h1, evicts_tiers (D := fifo V) (t := t) ht fifo_stamps
    (fun a b => fifo_le a b) strictMono_id h2 h3 h4 h5⟩

/-! ## Concrete histories -/

/-- Check a concrete history. -/
def freshTiersB {B : Block K V} (G : CellOps B) (elems : B.State → List (K × V)) :
    B.State → List (Session K V) → Bool
  | _, [] => true
  | s, x :: xs => decide (((elems s ++ x.given).map Prod.fst).Nodup) &&
    match Block.session G s x with
    | .ok (_, s') => freshTiersB G elems s' xs
    | .panic => true

theorem fresh_of_freshTiersB {B : Block K V} (G : CellOps B) (elems : B.State → List (K × V)) :
    ∀ (xs : List (Session K V)) (s : B.State),
    freshTiersB G elems s xs = true → Block.FreshSessions G elems s xs
  | [], _, _ => trivial
  | x :: xs, s, h => by
    simp only [freshTiersB, Bool.and_eq_true, decide_eq_true_eq] at h
    refine ⟨h.1, ?_⟩
    intro out s' hc
    have h2 := h.2
    rw [hc] at h2
    exact fresh_of_freshTiersB G elems xs s' h2

/-- The keys the next `pop(1)` evicts after a history, and the keys kept. -/
def victims {B : Block K V} (G : CellOps B) (elems : B.State → List (K × V)) (s : B.State)
    (xs : List (Session K V)) : Res (List K × List K) := do
  let (_, s) ← Block.sessions G s xs
  let (out, s) ← B.pop s 1
  return (out.map Prod.fst, (elems s).map Prod.fst)

omit [LinearOrder K] in
theorem EvictsOldest.victims [DecidableEq K] {B : Block K V} {G : CellOps B} {elems : B.State → List (K × V)} {s₀ : B.State}
    {xs : List (Session K V)} {outs s h} (hs : Block.sessions G s₀ xs = .ok (outs, s))
    (he : EvictsOldest B elems s h) {out kept : List K} (hv : TierProps.victims G elems s₀ xs = .ok (out, kept)) :
    ∀ x ∈ out, ∀ y ∈ kept, Before h x y := by
  obtain ⟨o, s', h1, h2⟩ := he.1 1
  simp only [TierProps.victims, hs, Res.ok_bind, h1, Res.pure_eq, Res.ok.injEq, Prod.mk.injEq] at hv
  obtain ⟨rfl, rfl⟩ := hv
  intro x hx y hy
  obtain ⟨x', hx', rfl⟩ := List.mem_map.1 hx
  obtain ⟨y', hy', rfl⟩ := List.mem_map.1 hy
  exact h2 x' hx' y' hy'

/-- `Exclusive<Array, Array>` of items. -/
def twoTiers {I : Type} (srt : Sorter (Nat × I)) : Stack Nat I :=
  .exclusive (.array (fun _ => 1) srt srt) (.array (fun _ => 1) srt srt)

/-- `Exclusive<Profiler<Array>, Exclusive<Array, Array>>` of items. -/
def threeTiers {I : Type} (srt : Sorter (Nat × I)) : Stack Nat I :=
  .exclusive (.profiler (.array (fun _ => 1) srt srt)) (twoTiers srt)

theorem lruSorter_array : (Stack.array (fun _ => 1) lruSorter lruSorter).Tiered :=
  ⟨fun _ => rfl, lruSorter_byValue, lruSorter_byValue⟩

theorem fifoSorter_array : (Stack.array (fun _ => 1) fifoSorter fifoSorter).Tiered :=
  ⟨fun _ => rfl, fifoSorter_byValue, fifoSorter_byValue⟩

/-- Three pushes, and lookups of the oldest key, in the back. -/
def lookupOldest (n : Nat) : List (Session Nat Nat) :=
  [.op (.push [(1, 10)]), .op (.push [(2, 20)]), .op (.push [(3, 30)]), .get 1 n]

theorem not_before_321 : ¬ Before [1, 2, 3] 2 1 := by
  rintro ⟨a, b, h1, h2, h3, h4⟩
  cases a with
  | nil => simp at h1; subst h1; simp at h3
  | cons x a =>
    simp only [List.cons_append, List.cons.injEq] at h1
    have : (1 : Nat) ∈ [2, 3] := by rw [h1.2]; exact List.mem_append_right _ h4
    simp at this

/-- **C92 is false**: `Exclusive<Array(1), Array(2)>`, keys 1, 2, 3 pushed in this order, `get(1)` whose cell
is not used.  Key 1 has moved to the front with its old stamp, and `pop(1)` evicts key 2 although key 1 was
used before. -/
theorem C92_false : ¬ C92_full := by
  intro h
  obtain ⟨outs, s, h1, h2⟩ := h Nat Nat Nat (id : Nat → Nat) strictMono_id (twoTiers lruSorter)
    ⟨lruSorter_array, lruSorter_array⟩ (Array.new 1, Array.new 2) ⟨⟨1, rfl⟩, ⟨2, rfl⟩⟩
    ⟨Nat.zero_lt_one, trivial, trivial⟩ (lookupOldest 0)
    (fresh_of_freshTiersB _ _ _ _ (by decide +kernel))
  exact not_before_321 (h2.victims h1 (out := [2]) (kept := [1, 3]) (by decide +kernel) 2 (by simp) 1 (by simp))

/-- **C93 is false**: the same with `Fifo`, and whether the cell is used or not. -/
theorem C93_false : ¬ C93_full := by
  intro h
  obtain ⟨outs, s, h1, h2⟩ := h Nat Nat (twoTiers fifoSorter)
    ⟨fifoSorter_array, fifoSorter_array⟩ (Array.new 1, Array.new 2) ⟨⟨1, rfl⟩, ⟨2, rfl⟩⟩
    ⟨Nat.zero_lt_one, trivial, trivial⟩ (lookupOldest 1)
    (fresh_of_freshTiersB _ _ _ _ (by decide +kernel))
  exact not_before_321 (h2.victims h1 (out := [2]) (kept := [1, 3]) (by decide +kernel) 2 (by simp) 1 (by simp))

/-- The oldest keys of each tier are looked up in turn, and used. -/
def demoTiers : List (Session Nat Nat) :=
  [.op (.push [(1, 10), (2, 20)]), .op (.push [(3, 30)]), .op (.push [(4, 40), (5, 50)]), .get 1 2,
    .getMut 2 [.write (· + 1)], .op (.take 4), .op (.push [(6, 60)])]

theorem demoTiers_used : CellsUsed demoTiers := by
  intro x hx
  simp only [demoTiers, List.mem_cons, List.not_mem_nil, or_false] at hx
  rcases hx with rfl | rfl | rfl | rfl | rfl | rfl | rfl <;> simp

theorem demoTiers_fresh : Block.FreshSessions (lruCells id (threeTiers lruSorter))
    (lruOf id (threeTiers lruSorter)).elems
    (((Array.new 2, {}), (Array.new 2, Array.new 2)), (0 : Nat)) demoTiers :=
  fresh_of_freshTiersB _ _ _ _ (by decide +kernel)

/-- Three tiers of capacity 2. -/
example := C92_lru_tiers_partial (id : Nat → Nat) strictMono_id (threeTiers lruSorter)
  ⟨lruSorter_array, lruSorter_array, lruSorter_array⟩ ((Array.new 2, {}), (Array.new 2, Array.new 2))
  ⟨⟨⟨2, rfl⟩, rfl⟩, ⟨2, rfl⟩, ⟨2, rfl⟩⟩ ⟨Nat.zero_lt_two, trivial, Nat.zero_lt_two, trivial, trivial⟩
  demoTiers demoTiers_used demoTiers_fresh

/-- Key 3 is evicted: all the others were used after it. -/
example : victims (lruCells id (threeTiers lruSorter)) (lruOf id (threeTiers lruSorter)).elems
    (((Array.new 2, {}), (Array.new 2, Array.new 2)), (0 : Nat)) demoTiers = .ok ([3], [2, 6, 5, 1]) := by
  decide +kernel

/-- Pushes and removals. -/
def demoFifo : List (Op Nat Nat) :=
  [.push [(1, 10), (2, 20)], .push [(3, 30)], .pop 1, .push [(4, 40), (5, 50)], .take 3, .push [(6, 60)]]

theorem demoFifo_fresh : Block.FreshSessions (fifoCells (threeTiers fifoSorter))
    (fifoOf (threeTiers fifoSorter)).elems
    (((Array.new 2, {}), (Array.new 2, Array.new 2)), (0 : Nat)) (demoFifo.map .op) :=
  fresh_of_freshTiersB _ _ _ _ (by decide +kernel)

example := C93_fifo_tiers_partial (threeTiers fifoSorter)
  ⟨fifoSorter_array, fifoSorter_array, fifoSorter_array⟩ ((Array.new 2, {}), (Array.new 2, Array.new 2))
  ⟨⟨⟨2, rfl⟩, rfl⟩, ⟨2, rfl⟩, ⟨2, rfl⟩⟩ ⟨Nat.zero_lt_two, trivial, Nat.zero_lt_two, trivial, trivial⟩
  demoFifo demoFifo_fresh

/-- Key 2 is evicted. -/
example : victims (fifoCells (threeTiers fifoSorter)) (fifoOf (threeTiers fifoSorter)).elems
    (((Array.new 2, {}), (Array.new 2, Array.new 2)), (0 : Nat)) (demoFifo.map .op) =
    .ok ([2], [5, 6, 4]) := by decide +kernel

end Byoc.TierProps
