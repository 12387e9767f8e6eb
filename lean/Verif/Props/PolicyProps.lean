import Verif.Proofs.Policies
import Verif.Props.ArrayProps
import Mathlib.Tactic.Linarith
import Mathlib.Tactic.Ring
import Mathlib.Tactic.GCongr

/-!
# C39 – C42, C56: eviction policies
-/

namespace Byoc.PolicyProps

open Policy ArrayProps

variable {K V T : Type} [LinearOrder K]

/-- An `Array` decorated by `D`. -/
abbrev decorated (D : Decoration V) (sz : K × D.Item → Nat) (srt srtS : Sorter (K × D.Item)) :
    Block K V := decorator D (arrayBlock sz srt srtS)

/-- Its accesses. -/
abbrev decoratedGet {D : Decoration V} (A : Access D) (sz : K × D.Item → Nat)
    (srt srtS : Sorter (K × D.Item)) : GetOps (decorated D sz srt srtS) :=
  decoratorGet A (arrayGet sz srt srtS)

/-- Writing through a cell does not change the size of elements. -/
def KeepsSize {D : Decoration V} (A : Access D) (sz : K × D.Item → Nat) (cs : List (Call K V)) : Prop :=
  ∀ c ∈ cs, c.Ok (fun _ => True) (fun f => ∀ fac k i, sz (k, A.access fac f i) = sz (k, i))

/-- Every pushed batch has distinct keys, none of which is stored: a key denotes one element. -/
def Fresh {D : Decoration V} (A : Access D) (sz : K × D.Item → Nat) (srt srtS : Sorter (K × D.Item))
    (s : (decorated D sz srt srtS).State) (cs : List (Call K V)) : Prop :=
  (decorated D sz srt srtS).FreshCalls (decoratedGet A sz srt srtS)
    (decorated D sz srt srtS).contents s cs

section
variable {D : Decoration V} {A : Access D} {sz : K × D.Item → Nat} {srt srtS : Sorter (K × D.Item)}

/-- The state after a history. -/
theorem history [LinearOrder T] {stamp : D.Item → T} {clock : Nat → T} {read : D.Factory → Nat}
    {touch : Bool} (hD : Stamps D stamp clock read) (hA : Accesses D A stamp clock read touch)
    (cap : Nat) (fac : D.Factory) (cs : List (Call K V)) (hk : KeepsSize A sz cs)
    (hf : Fresh A sz srt srtS (Array.new cap, fac) cs) :
    ∃ outs s, (decorated D sz srt srtS).calls (decoratedGet A sz srt srtS) (Array.new cap, fac) cs =
        .ok (outs, s) ∧ Array.Inv sz s.1 ∧ (s.1.values.map Prod.fst).Nodup ∧
      Ranked stamp clock (read s.2) s.1.values (cs.flatMap (used touch)) := by
  obtain ⟨outs, s, h1, h2, h3, h4⟩ := ranked_calls (h := []) hD hA (Array.lawful sz srt srtS)
    (Array.getLawful sz srt srtS) cs hk (Array.new cap, fac) (Array.new_inv sz cap)
    (by simp [Array.new]) (by simpa [Array.new] using Ranked.nil) hf
  exact ⟨outs, s, h1, h2, h3, by simpa using h4⟩

theorem ne_of_split {kept out old : List (K × D.Item)} (hp : (kept ++ out).Perm old)
    (hn : (old.map Prod.fst).Nodup) {x y} (hx : x ∈ out) (hy : y ∈ kept) : x.1 ≠ y.1 := by
  have := (hp.map Prod.fst).nodup_iff.2 hn
  rw [List.map_append] at this
  exact fun h => (List.nodup_append.1 this).2.2 y.1 (List.mem_map_of_mem hy) x.1
    (List.mem_map_of_mem hx) h.symm

/-- What `pop` evicts was last used before what it keeps. -/
theorem pop_evicts [LinearOrder T] [LE D.Item] {stamp : D.Item → T} {clock : Nat → T}
    (hle : ∀ a b : D.Item, a ≤ b ↔ stamp b ≤ stamp a) (hm : StrictMono clock) (hS : ByValue srt)
    {s : (decorated D sz srt srtS).State} {fac : Nat} {h : List K} (hi : Array.Inv sz s.1)
    (hn : (s.1.values.map Prod.fst).Nodup) (hr : Ranked stamp clock fac s.1.values h) (n : Nat) :
    ∃ out s', (decorated D sz srt srtS).pop s n = .ok (out, s') ∧
      ∀ x ∈ out, ∀ y ∈ (decorated D sz srt srtS).contents s', Before h x.1 y.1 := by
  obtain ⟨out, c, h1, h2, -⟩ := (Array.lawful sz srt srtS).pop s.1 n hi
  obtain ⟨h3, h4⟩ := Array.pop_order hS hi h1
  refine ⟨out.map (strip D), (c, s.2), by simp [decorated, decorator, h1], ?_⟩
  intro x hx y hy
  replace hy : y ∈ c.values.map (strip _) := hy
  obtain ⟨x', hx', rfl⟩ := List.mem_map.1 hx
  obtain ⟨y', hy', rfl⟩ := List.mem_map.1 hy
  clear hx hy
  rename' x' => x, y' => y, hx' => hx, hy' => hy
  exact hr.before hm (h3.mem_iff.1 (List.mem_append_right _ hx))
    (h3.mem_iff.1 (List.mem_append_left _ hy)) (ne_of_split h3 hn hx hy) ((hle _ _).1 (h4 y hy x hx))

/-- What `pop` evicts was last used before what it keeps, or has the same stamp. -/
theorem pop_evicts_monotone [LinearOrder T] [LE D.Item] {stamp : D.Item → T} {clock : Nat → T}
    (hle : ∀ a b : D.Item, a ≤ b ↔ stamp b ≤ stamp a) (hm : Monotone clock) (hS : ByValue srt)
    {s : (decorated D sz srt srtS).State} {fac : Nat} {h : List K} (hi : Array.Inv sz s.1)
    (hr : Ranked stamp clock fac s.1.values h) (n : Nat) :
    ∃ out s', (decorated D sz srt srtS).pop s n = .ok (out, s') ∧
      ∀ x ∈ out, ∀ y ∈ (decorated D sz srt srtS).contents s', Before h x.1 y.1 ∨
        ∃ ix iy, (x.1, ix) ∈ s.1.values ∧ (y.1, iy) ∈ s.1.values ∧ stamp ix = stamp iy := by
  obtain ⟨out, c, h1, h2, -⟩ := (Array.lawful sz srt srtS).pop s.1 n hi
  obtain ⟨h3, h4⟩ := Array.pop_order hS hi h1
  refine ⟨out.map (strip D), (c, s.2), by simp [decorated, decorator, h1], ?_⟩
  intro x hx y hy
  replace hy : y ∈ c.values.map (strip _) := hy
  obtain ⟨x', hx', rfl⟩ := List.mem_map.1 hx
  obtain ⟨y', hy', rfl⟩ := List.mem_map.1 hy
  have mx := h3.mem_iff.1 (List.mem_append_right _ hx')
  have my := h3.mem_iff.1 (List.mem_append_left _ hy')
  rcases lt_or_eq_of_le ((hle _ _).1 (h4 y' hy' x' hx')) with hlt | heq
  · exact .inl (hr.before_of_lt hm mx my hlt)
  · exact .inr ⟨_, _, mx, my, heq⟩

/-- What `push` evicts was last used before what it keeps. -/
theorem push_evicts [LinearOrder T] [LE D.Item] {stamp : D.Item → T} {clock : Nat → T}
    {read : D.Factory → Nat} (hD : Stamps D stamp clock read)
    (hle : ∀ a b : D.Item, a ≤ b ↔ stamp b ≤ stamp a) (hm : StrictMono clock) (hS : ByValue srt)
    (hS' : ByValue srtS) {s : (decorated D sz srt srtS).State} {h : List K} (hi : Array.Inv sz s.1)
    (hr : Ranked stamp clock (read s.2) s.1.values h) (l : List (K × V))
    (hn : (s.1.values.map Prod.fst ++ l.map Prod.fst).Nodup) :
    ∃ out s', (decorated D sz srt srtS).push s l = .ok (out, s') ∧
      ∀ x ∈ out, ∀ y ∈ (decorated D sz srt srtS).contents s', Before (h ++ l.map Prod.fst) x.1 y.1 := by
  obtain ⟨out, c, h1, h2, -⟩ := (Array.lawful sz srt srtS).push s.1 (wrapAll D s.2 l).1 hi trivial
  obtain ⟨h3, h4⟩ := Array.push_order hS hS' hi h1
  have hr' := hD.wrapAll l s.2 s.1.values h hn hr
  have hn' : ((s.1.values ++ (wrapAll D s.2 l).1).map Prod.fst).Nodup := by
    rw [List.map_append, wrapAll_keys]; exact hn
  refine ⟨out.map (strip D), (c, (wrapAll D s.2 l).2), by simp [decorated, decorator, h1], ?_⟩
  intro x hx y hy
  replace hy : y ∈ c.values.map (strip _) := hy
  obtain ⟨x', hx', rfl⟩ := List.mem_map.1 hx
  obtain ⟨y', hy', rfl⟩ := List.mem_map.1 hy
  clear hx hy
  rename' x' => x, y' => y, hx' => hx, hy' => hy
  rcases h4 y hy x hx with ⟨g1, g2⟩ | g
  · refine .append (hr.mem g1) ?_ ?_
    · intro hmem
      exact (List.nodup_append.1 hn).2.2 x.1 (List.mem_map_of_mem g1) x.1 hmem rfl
    · rw [← wrapAll_keys (D := D) l s.2]
      exact List.mem_map_of_mem g2
  · exact hr'.before hm (h3.mem_iff.1 (List.mem_append_right _ hx))
      (h3.mem_iff.1 (List.mem_append_left _ hy)) (ne_of_split h3 hn' hx hy) ((hle _ _).1 g)

end

/-! ## C39: Fifo -/

theorem reversed_ne_gt {T : Type} [LinearOrder T] (a b : T) :
    reversed (compare a b) ≠ .gt ↔ b ≤ a := by
  rcases lt_trichotomy a b with h | h | h
  · rw [compare_lt_iff_lt.2 h]; simp [reversed, h]
  · subst h; rw [compare_eq_iff_eq.2 rfl]; simp [reversed]
  · rw [compare_gt_iff_gt.2 h]; simp [reversed, le_of_lt h]

theorem fifo_le (a b : FifoCell V) : a ≤ b ↔ b.counter ≤ a.counter := reversed_ne_gt _ _

instance : LE (fifo V).Item := inferInstanceAs (LE (FifoCell V))

theorem fifo_stamps : Stamps (fifo V) (fun c : FifoCell V => c.counter) id (fun n : Nat => n) :=
  ⟨fun _ _ => rfl, fun _ _ => ⟨rfl, rfl⟩⟩

theorem fifo_accesses :
    Accesses (fifo V) (fifoAccess V) (fun c : FifoCell V => c.counter) id (fun n : Nat => n) false :=
  ⟨fun _ _ _ => rfl, fun _ _ _ => ⟨rfl, rfl⟩⟩

/-- The keys pushed by a history, in order. -/
def pushedKeys (cs : List (Call K V)) : List K := cs.flatMap fun c => c.given.map Prod.fst

omit [LinearOrder K] in
theorem pushedKeys_eq (cs : List (Call K V)) : cs.flatMap (used false) = pushedKeys cs := by
  unfold pushedKeys
  congr 1
  funext c
  cases c with
  | op o => cases o <;> rfl
  | _ => rfl

/-- **C39.** After any history of calls and accesses on an `Array` decorated with `Fifo`, everything
evicted by `pop` was pushed before everything kept, and everything evicted by a further `push` was
pushed before everything kept.  (Element sizes, capacity and sorting routines arbitrary.) -/
theorem C39_fifo (sz : K × FifoCell V → Nat) (srt srtS : Sorter (K × FifoCell V))
    (hS : ByValue srt) (hS' : ByValue srtS) (cap : Nat) (cs : List (Call K V))
    (hk : KeepsSize (D := fifo V) (fifoAccess V) sz cs)
    (hf : Fresh (D := fifo V) (fifoAccess V) sz srt srtS (Array.new cap, (0 : Nat)) cs) :
    ∃ outs s, (decorated (fifo V) sz srt srtS).calls (decoratedGet (fifoAccess V) sz srt srtS)
        (Array.new cap, (0 : Nat)) cs = .ok (outs, s) ∧
      (∀ n, ∃ out s', (decorated (fifo V) sz srt srtS).pop s n = .ok (out, s') ∧
        ∀ x ∈ out, ∀ y ∈ (decorated (fifo V) sz srt srtS).contents s',
          Before (pushedKeys cs) x.1 y.1) ∧
      (∀ l : List (K × V), (((decorated (fifo V) sz srt srtS).contents s ++ l).map Prod.fst).Nodup →
        ∃ out s', (decorated (fifo V) sz srt srtS).push s l = .ok (out, s') ∧
        ∀ x ∈ out, ∀ y ∈ (decorated (fifo V) sz srt srtS).contents s',
          Before (pushedKeys cs ++ l.map Prod.fst) x.1 y.1) := by
  obtain ⟨outs, s, h1, h2, h3, h4⟩ := history fifo_stamps fifo_accesses cap (0 : Nat) cs hk hf
  rw [pushedKeys_eq] at h4
  refine ⟨outs, s, h1, ?_, ?_⟩
  · intro n
    exact pop_evicts (D := fifo V) (fun a b => fifo_le a b) strictMono_id hS h2 h3 h4 n
  · intro l hn
    refine push_evicts (D := fifo V) fifo_stamps (fun a b => fifo_le a b) strictMono_id hS hS' h2 h4 l ?_
    replace hn : ((s.1.values.map (strip _) ++ l).map Prod.fst).Nodup := hn
    rw [List.map_append, List.map_map] at hn
    exact hn

/-! ## C40: Lru -/

instance [LinearOrder T] {clock : Nat → T} : LE (lru V clock).Item := inferInstanceAs (LE (LruCell V T))

theorem lru_le [LinearOrder T] (a b : LruCell V T) : a ≤ b ↔ b.timestamp ≤ a.timestamp :=
  reversed_ne_gt _ _

theorem lru_stamps (clock : Nat → T) :
    Stamps (lru V clock) (fun c : LruCell V T => c.timestamp) clock (fun n : Nat => n) :=
  ⟨fun _ _ => rfl, fun _ _ => ⟨rfl, rfl⟩⟩

theorem lru_accesses (clock : Nat → T) :
    Accesses (lru V clock) (lruAccess V clock) (fun c : LruCell V T => c.timestamp) clock
      (fun n : Nat => n) true :=
  ⟨fun _ _ _ => rfl, fun _ _ _ => ⟨rfl, rfl⟩⟩

/-- The keys used by a history, in order: pushed, or accessed through a cell. -/
def usedKeys : List (Call K V) → List K
  | [] => []
  | .op o :: cs => o.given.map Prod.fst ++ usedKeys cs
  | .get k _ :: cs => k :: usedKeys cs
  | .getMut k _ :: cs => k :: usedKeys cs

omit [LinearOrder K] in
theorem usedKeys_eq (cs : List (Call K V)) : cs.flatMap (used true) = usedKeys cs := by
  induction cs with
  | nil => rfl
  | cons c cs ih =>
    rw [List.flatMap_cons, ih]
    cases c with
    | op o => cases o <;> rfl
    | _ => rfl

/-- **C40.** With a clock whose readings increase (`Counter`), after any history of calls and accesses
on an `Array` decorated with `Lru`, everything evicted by `pop` was last used (pushed, read or written)
before everything kept; the same for what a further `push` evicts. -/
theorem C40_lru [LinearOrder T] (clock : Nat → T) (hm : StrictMono clock)
    (sz : K × LruCell V T → Nat) (srt srtS : Sorter (K × LruCell V T))
    (hS : ByValue srt) (hS' : ByValue srtS) (cap : Nat) (cs : List (Call K V))
    (hk : KeepsSize (D := lru V clock) (lruAccess V clock) sz cs)
    (hf : Fresh (D := lru V clock) (lruAccess V clock) sz srt srtS (Array.new cap, (0 : Nat)) cs) :
    ∃ outs s, (decorated (lru V clock) sz srt srtS).calls (decoratedGet (lruAccess V clock) sz srt srtS)
        (Array.new cap, (0 : Nat)) cs = .ok (outs, s) ∧
      (∀ n, ∃ out s', (decorated (lru V clock) sz srt srtS).pop s n = .ok (out, s') ∧
        ∀ x ∈ out, ∀ y ∈ (decorated (lru V clock) sz srt srtS).contents s',
          Before (usedKeys cs) x.1 y.1) ∧
      (∀ l : List (K × V), (((decorated (lru V clock) sz srt srtS).contents s ++ l).map Prod.fst).Nodup →
        ∃ out s', (decorated (lru V clock) sz srt srtS).push s l = .ok (out, s') ∧
        ∀ x ∈ out, ∀ y ∈ (decorated (lru V clock) sz srt srtS).contents s',
          Before (usedKeys cs ++ l.map Prod.fst) x.1 y.1) := by
  obtain ⟨outs, s, h1, h2, h3, h4⟩ := history (lru_stamps clock) (lru_accesses clock) cap (0 : Nat) cs hk hf
  rw [usedKeys_eq] at h4
  refine ⟨outs, s, h1, ?_, ?_⟩
  · intro n
    exact pop_evicts (D := lru V clock) (fun a b => lru_le a b) hm hS h2 h3 h4 n
  · intro l hn
    refine push_evicts (D := lru V clock) (lru_stamps clock) (fun a b => lru_le a b) hm hS hS' h2 h4 l ?_
    replace hn : ((s.1.values.map (strip _) ++ l).map Prod.fst).Nodup := hn
    rw [List.map_append, List.map_map] at hn
    exact hn

/-- **C40, any monotone clock** (`Clock`: two readings may be equal).  Everything evicted by `pop` was
last used before everything kept, unless the clock showed the same time at both last uses. -/
theorem C40_lru_monotone [LinearOrder T] (clock : Nat → T) (hm : Monotone clock)
    (sz : K × LruCell V T → Nat) (srt srtS : Sorter (K × LruCell V T))
    (hS : ByValue srt) (cap : Nat) (cs : List (Call K V))
    (hk : KeepsSize (D := lru V clock) (lruAccess V clock) sz cs)
    (hf : Fresh (D := lru V clock) (lruAccess V clock) sz srt srtS (Array.new cap, (0 : Nat)) cs) :
    ∃ outs s, (decorated (lru V clock) sz srt srtS).calls (decoratedGet (lruAccess V clock) sz srt srtS)
        (Array.new cap, (0 : Nat)) cs = .ok (outs, s) ∧
      (∀ n, ∃ out s', (decorated (lru V clock) sz srt srtS).pop s n = .ok (out, s') ∧
        ∀ x ∈ out, ∀ y ∈ (decorated (lru V clock) sz srt srtS).contents s',
          Before (usedKeys cs) x.1 y.1 ∨
          ∃ cx cy : LruCell V T, (x.1, cx) ∈ s.1.values ∧ (y.1, cy) ∈ s.1.values ∧
            cx.timestamp = cy.timestamp) := by
  obtain ⟨outs, s, h1, h2, h3, h4⟩ := history (lru_stamps clock) (lru_accesses clock) cap (0 : Nat) cs hk hf
  rw [usedKeys_eq] at h4
  refine ⟨outs, s, h1, ?_⟩
  intro n
  exact pop_evicts_monotone (D := lru V clock) (fun a b => lru_le a b) hm hS h2 h4 n

/-! ### Non-vacuity -/

/-- Check a concrete history. -/
def freshB {B : Block K V} (G : GetOps B) : B.State → List (Call K V) → Bool
  | _, [] => true
  | s, c :: cs => decide (((B.contents s ++ c.given).map Prod.fst).Nodup) &&
    match B.call G s c with
    | .ok (_, s') => freshB G s' cs
    | .panic => true

theorem fresh_of_freshB {B : Block K V} (G : GetOps B) : ∀ (cs : List (Call K V)) (s : B.State),
    freshB G s cs = true → B.FreshCalls G B.contents s cs
  | [], _, _ => trivial
  | c :: cs, s, h => by
    simp only [freshB, Bool.and_eq_true, decide_eq_true_eq] at h
    refine ⟨fun _ => h.1, ?_⟩
    intro out s' hc
    have h2 := h.2
    rw [hc] at h2
    exact fresh_of_freshB G cs s' h2

instance (a b : FifoCell V) : Decidable (a ≤ b) := decidable_of_iff _ (fifo_le a b).symm
instance [LinearOrder T] (a b : LruCell V T) : Decidable (a ≤ b) := decidable_of_iff _ (lru_le a b).symm

def fifoSorter : Sorter (Nat × FifoCell Nat) := Sorter.ofLe (fun a b => a.2 ≤ b.2)
def lruSorter : Sorter (Nat × LruCell Nat Nat) := Sorter.ofLe (fun a b => a.2 ≤ b.2)

theorem fifoSorter_byValue : ByValue fifoSorter := by
  intro l
  have : Std.Total (fun a b : Nat × FifoCell Nat => a.2 ≤ b.2) :=
    ⟨fun a b => by simp only [fifo_le]; exact Nat.le_total _ _⟩
  have : IsTrans (Nat × FifoCell Nat) (fun a b => a.2 ≤ b.2) :=
    ⟨fun a b c => by simp only [fifo_le]; exact fun h1 h2 => Nat.le_trans h2 h1⟩
  exact List.pairwise_insertionSort _ l

theorem lruSorter_byValue : ByValue lruSorter := by
  intro l
  have : Std.Total (fun a b : Nat × LruCell Nat Nat => a.2 ≤ b.2) :=
    ⟨fun a b => by simp only [lru_le]; exact Nat.le_total _ _⟩
  have : IsTrans (Nat × LruCell Nat Nat) (fun a b => a.2 ≤ b.2) :=
    ⟨fun a b c => by simp only [lru_le]; exact fun h1 h2 => Nat.le_trans h2 h1⟩
  exact List.pairwise_insertionSort _ l

/-- Three pushes and reads of key 1. -/
def demoCalls : List (Call Nat Nat) :=
  [.op (.push [(1, 10), (2, 20)]), .get 1 id, .op (.push [(3, 30)]), .getMut 1 (· + 1)]

theorem fifo_demo_keeps :
    KeepsSize (D := fifo Nat) (fifoAccess Nat) (fun _ : Nat × FifoCell Nat => 1) demoCalls := by
  intro c hc
  simp only [demoCalls, List.mem_cons, List.not_mem_nil, or_false] at hc
  rcases hc with rfl | rfl | rfl | rfl <;> first | trivial | (intro _ _ _; rfl)

theorem fifo_demo_fresh : Fresh (D := fifo Nat) (fifoAccess Nat) (fun _ : Nat × FifoCell Nat => 1)
    fifoSorter fifoSorter (Array.new 3, (0 : Nat)) demoCalls :=
  fresh_of_freshB _ _ _ (by decide +kernel)

/-- `Fifo` evicts key 1 although it has just been read. -/
example : ((decorated (fifo Nat) (fun _ : Nat × FifoCell Nat => 1) fifoSorter fifoSorter).calls
    (decoratedGet (fifoAccess Nat) _ _ _) (Array.new 3, (0 : Nat))
    (demoCalls ++ [.op (.pop 1)])).bind (fun x => .ok x.1) = .ok [(1, 11)] := by decide +kernel

example := C39_fifo (fun _ : Nat × FifoCell Nat => 1) fifoSorter fifoSorter fifoSorter_byValue
  fifoSorter_byValue 3 demoCalls fifo_demo_keeps fifo_demo_fresh

theorem lru_demo_keeps :
    KeepsSize (D := lru Nat (id : Nat → Nat)) (lruAccess Nat id) (fun _ : Nat × LruCell Nat Nat => 1)
      demoCalls := by
  intro c hc
  simp only [demoCalls, List.mem_cons, List.not_mem_nil, or_false] at hc
  rcases hc with rfl | rfl | rfl | rfl <;> first | trivial | (intro _ _ _; rfl)

theorem lru_demo_fresh : Fresh (D := lru Nat (id : Nat → Nat)) (lruAccess Nat id)
    (fun _ : Nat × LruCell Nat Nat => 1) lruSorter lruSorter (Array.new 3, (0 : Nat)) demoCalls :=
  fresh_of_freshB _ _ _ (by decide +kernel)

/-- `Lru` evicts key 2. -/
example : ((decorated (lru Nat (id : Nat → Nat)) (fun _ : Nat × LruCell Nat Nat => 1) lruSorter lruSorter).calls
    (decoratedGet (lruAccess Nat id) _ _ _) (Array.new 3, (0 : Nat))
    (demoCalls ++ [.op (.pop 1)])).bind (fun x => .ok x.1) = .ok [(2, 20)] := by decide +kernel

example := C40_lru (id : Nat → Nat) strictMono_id (fun _ : Nat × LruCell Nat Nat => 1) lruSorter lruSorter
  lruSorter_byValue lruSorter_byValue 3 demoCalls lru_demo_keeps lru_demo_fresh

/-! ## C41: Lrfu -/

/-- Full statement of C41: at any instant (any number `n` of earlier readings of the clock), the
comparison of `Lrfu` cells is reflexive, antisymmetric and transitive. -/
def C41_full : Prop :=
  ∀ (V : Type) (clock : Nat → Nat), Monotone clock → ∀ (n : Nat) (a b c : LrfuCell V),
    a.cmp clock n a = .eq ∧ (a.cmp clock n b).swap = b.cmp clock n a ∧
    (a.cmp clock n b ≠ .gt → b.cmp clock n c ≠ .gt → a.cmp clock n c ≠ .gt)

theorem compare_ne_gt {T : Type} [LinearOrder T] (a b : T) : compare a b ≠ .gt ↔ a ≤ b := by
  rw [ne_eq, compare_gt_iff_gt, not_lt]

theorem compare_swap' {T : Type} [LinearOrder T] (a b : T) : (compare a b).swap = compare b a := by
  rcases lt_trichotomy a b with h | h | h
  · rw [compare_lt_iff_lt.2 h, compare_gt_iff_gt.2 h]; rfl
  · subst h; rw [compare_eq_iff_eq.2 rfl]; rfl
  · rw [compare_gt_iff_gt.2 h, compare_lt_iff_lt.2 h]; rfl

/-- **C41**, proved part: when the clock does not advance between the two readings a comparison makes,
the comparison is a total preorder, the one of the scores. -/
theorem C41_partial (clock : Nat → Nat) (n : Nat) (hc : clock (n + 1) = clock n) (a b c : LrfuCell V) :
    a.cmp clock n a = .eq ∧ (a.cmp clock n b).swap = b.cmp clock n a ∧
    (a.cmp clock n b ≠ .gt → b.cmp clock n c ≠ .gt → a.cmp clock n c ≠ .gt) ∧
    (a.cmp clock n b ≠ .gt ↔ a.stats.score (clock n) ≤ b.stats.score (clock n)) := by
  simp only [LrfuCell.cmp, hc]
  refine ⟨compare_eq_iff_eq.2 rfl, compare_swap' _ _, ?_, compare_ne_gt _ _⟩
  simp only [compare_ne_gt]
  exact le_trans

theorem score_later (s : LrfuStats) (t t' : Nat) : s.score t' = s.score t + ((t' : ℚ) - t) := by
  simp only [LrfuStats.score, tsDiff]; ring

/-- In general the comparison is off by what the clock advanced. -/
theorem C41_off_by_elapsed (clock : Nat → Nat) (n : Nat) (a b : LrfuCell V) :
    a.cmp clock n b ≠ .gt ↔
      a.stats.score (clock n) ≤ b.stats.score (clock n) + ((clock (n + 1) : ℚ) - clock n) := by
  rw [LrfuCell.cmp, compare_ne_gt, score_later b.stats (clock n) (clock (n + 1))]

/-- With a clock that advances at each reading (`Counter`), every element is less than itself. -/
theorem C41_less_than_itself (clock : Nat → Nat) (hm : StrictMono clock) (n : Nat) (a : LrfuCell V) :
    a.cmp clock n a = .lt := by
  rw [LrfuCell.cmp, compare_lt_iff_lt, score_later a.stats (clock n) (clock (n + 1))]
  have : clock n < clock (n + 1) := hm (Nat.lt_succ_self n)
  have : (clock n : ℚ) < clock (n + 1) := by exact_mod_cast this
  linarith

/-- With `Counter`, `<=` on cells is not transitive, even at a fixed instant. -/
theorem C41_not_transitive : ∃ a b c : LrfuCell Unit, a.cmp id 10 b ≠ .gt ∧ b.cmp id 10 c ≠ .gt ∧
    a.cmp id 10 c = .gt := by
  refine ⟨⟨(), ⟨1, 0, 1⟩⟩, ⟨(), ⟨2, 0, 1⟩⟩, ⟨(), ⟨3, 0, 1⟩⟩, ?_, ?_, ?_⟩ <;> decide +kernel

theorem C41_false : ¬ C41_full := by
  intro h
  have h1 := (h Unit id monotone_id 10 ⟨(), ⟨1, 0, 1⟩⟩ ⟨(), ⟨1, 0, 1⟩⟩ ⟨(), ⟨1, 0, 1⟩⟩).1
  rw [C41_less_than_itself id strictMono_id] at h1
  cases h1

/-- The policy: at any instant, an element used no earlier and with no greater average interval between
uses has no greater score, so it is evicted later. -/
theorem C41_recent_frequent (a b : LrfuStats) (t : Nat) (he : a.exponent = b.exponent)
    (hpos : 0 < a.exponent) (hl : b.last ≤ a.last) (hv : a.eavg ≤ b.eavg) : a.score t ≤ b.score t := by
  simp only [LrfuStats.score, tsDiff, ← he]
  have h1 : (b.last : ℚ) ≤ a.last := by exact_mod_cast hl
  have h2 : a.eavg / a.exponent ≤ b.eavg / a.exponent := by gcongr
  linarith

/-! ## C42: Counter -/

/-- **C42.** Whatever the schedule, the calls of `Counter::now()` by any number of threads return, in
the order in which they take effect, strictly increasing values (so all distinct), until 2^64 calls have
been made. -/
theorem C42_counter (sched : List Nat) : ∀ st, st + sched.length ≤ 2 ^ 64 →
    ((counterRun st sched).1.map Prod.snd).Pairwise (· < ·) ∧
    (counterRun st sched).1.map Prod.fst = sched ∧
    ∀ v ∈ (counterRun st sched).1.map Prod.snd, st ≤ v ∧ v < st + sched.length := by
  induction sched with
  | nil => intro st _; simp [counterRun]
  | cons i sched ih =>
    intro st h
    simp only [List.length_cons] at h
    by_cases hs : sched = []
    · subst hs; simp [counterRun, counterNow]
    · have hlen : 0 < sched.length := List.length_pos_iff.2 hs
      have hmod : (st + 1) % 2 ^ 64 = st + 1 := Nat.mod_eq_of_lt (by omega)
      obtain ⟨h1, h2, h3⟩ := ih (st + 1) (by omega)
      simp only [counterRun, counterNow, hmod, List.map_cons, List.pairwise_cons, h2, true_and,
        List.mem_cons, List.length_cons]
      refine ⟨⟨?_, h1⟩, ?_⟩
      · intro v hv; have := h3 v hv; omega
      · rintro v (rfl | hv)
        · omega
        · have := h3 v hv; omega

example : (counterRun 5 [0, 1, 0]).1 = [(0, 5), (1, 6), (0, 7)] := by decide

/-- After 2^64 calls the counter starts again from 0. -/
theorem C42_wraps : (counterRun (2 ^ 64 - 1) [0, 1]).1 = [(0, 2 ^ 64 - 1), (1, 0)] := by decide +kernel

/-! ## C56: clones of a decorated container -/

/-- The calls a history of actions makes on the container, `n` handles existing at the start (actions
on handles that do not exist are not performed). -/
def callsOf : Nat → List (CAct K V) → List (Call K V)
  | _, [] => []
  | n, .clone i :: as => if i < n then callsOf (n + 1) as else callsOf n as
  | n, .op i o :: as => if i < n then .op o :: callsOf n as else callsOf n as

/-- Full statement of C56: whichever handles are cloned and used, what `pop` evicts was pushed before
what it keeps (every key being pushed once). -/
def C56_full : Prop :=
  ∀ (V : Type) (srt srtS : Sorter (Nat × FifoCell V)), ByValue srt → ByValue srtS →
    ∀ (cap : Nat) (as : List (CAct Nat V)), (pushedKeys (callsOf 1 as)).Nodup →
    ∀ outs s, Clones.run (D := fifo V) (C := arrayBlock (fun _ => 1) srt srtS) fifoClone
        ⟨Array.new cap, [(0 : Nat)]⟩ as = .ok (outs, s) →
    ∀ i n, i < s.factories.length → ∀ out s', s.step fifoClone (.op i (.pop n)) = .ok (out, s') →
    ∀ x ∈ out, ∀ y ∈ (arrayBlock (fun _ => 1) srt srtS).contents s'.cont,
      Before (pushedKeys (callsOf 1 as)) x.1 y.1

/-- The history pushes through handle 0 only. -/
def OnePusher : List (CAct K V) → Prop
  | [] => True
  | .op i (.push _) :: as => i = 0 ∧ OnePusher as
  | _ :: as => OnePusher as

section
variable {D : Decoration V} {C : Block K D.Item} {dup : D.Factory → D.Factory}

omit [LinearOrder K] in
/-- Calls other than `push` ignore the factory. -/
theorem step_factory (c : C.State) (f g : D.Factory) (o : Op K V) (ho : o.given = [])
    (hn : ∀ l, o ≠ .push l) (out : List (K × V)) (c' : C.State) (f' : D.Factory)
    (h : (decorator D C).step (c, f) o = .ok (out, (c', f'))) :
    f' = f ∧ (decorator D C).step (c, g) o = .ok (out, (c', g)) := by
  cases o with
  | push l => exact absurd rfl (hn l)
  | contains k =>
    cases h1 : C.contains c k <;> simp_all [Block.step, decorator]
  | take k =>
    cases h1 : C.take c k <;> simp_all [Block.step, decorator]
  | takeMultiple k =>
    cases h1 : C.takeMultiple c k <;> simp_all [Block.step, decorator]
  | pop k =>
    cases h1 : C.pop c k <;> simp_all [Block.step, decorator]
  | flush =>
    cases h1 : C.flush c <;> simp_all [Block.step, decorator]

omit [LinearOrder K] in
/-- With one pusher, the handles together behave as one decorated container. -/
theorem one_pusher (G : GetOps (decorator D C)) : ∀ (as : List (CAct K V)) (s : Clones D C)
    (f : D.Factory), OnePusher as → s.factories[0]? = some f →
    ∀ outs s', s.run dup as = .ok (outs, s') →
    ∃ f', s'.factories[0]? = some f' ∧
      (decorator D C).calls G (s.cont, f) (callsOf s.factories.length as) = .ok (outs, (s'.cont, f'))
  | [], s, f, _, hf, outs, s', h => by
    cases h
    exact ⟨f, hf, rfl⟩
  | .clone i :: as, s, f, hp, hf, outs, s', h => by
    by_cases hi : i < s.factories.length
    · simp only [Clones.run, Clones.step, List.getElem?_eq_getElem hi, Res.ok_bind] at h
      cases h1 : Clones.run dup (⟨s.cont, s.factories ++ [dup s.factories[i]]⟩ : Clones D C) as with
      | panic => simp [h1] at h
      | ok r =>
        obtain ⟨o, s2⟩ := r
        simp only [h1, Res.ok_bind, Res.pure_eq, Res.ok.injEq] at h
        cases h
        obtain ⟨f', g1, g2⟩ := one_pusher G as _ f hp (by
          rw [List.getElem?_append_left (by omega)]; exact hf) _ _ h1
        exact ⟨f', g1, by simpa [callsOf, hi] using g2⟩
    · simp only [Clones.run, Clones.step, List.getElem?_eq_none (Nat.le_of_not_lt hi), Res.ok_bind] at h
      cases h1 : Clones.run dup s as with
      | panic => simp [h1] at h
      | ok r =>
        obtain ⟨o, s2⟩ := r
        simp only [h1, Res.ok_bind, Res.pure_eq, Res.ok.injEq] at h
        cases h
        obtain ⟨f', g1, g2⟩ := one_pusher G as _ f hp hf _ _ h1
        exact ⟨f', g1, by simpa [callsOf, hi] using g2⟩
  | .op i o :: as, s, f, hp, hf, outs, s', h => by
    have hp' : OnePusher as ∧ ((∀ l, o ≠ .push l) ∨ i = 0) := by
      cases o <;> simp_all [OnePusher]
    by_cases hi : i < s.factories.length
    · simp only [Clones.run, Clones.step, List.getElem?_eq_getElem hi] at h
      cases h0 : (decorator D C).step (s.cont, s.factories[i]) o with
      | panic => simp [h0] at h
      | ok r0 =>
        obtain ⟨out, c', fi'⟩ := r0
        simp only [h0, Res.ok_bind, Res.pure_eq] at h
        cases h1 : Clones.run dup (⟨c', s.factories.set i fi'⟩ : Clones D C) as with
        | panic => simp [h1] at h
        | ok r =>
          obtain ⟨o2, s2⟩ := r
          simp only [h1, Res.ok_bind, Res.ok.injEq] at h
          cases h
          have key : ∃ f1, (s.factories.set i fi')[0]? = some f1 ∧
              (decorator D C).step (s.cont, f) o = .ok (out, (c', f1)) := by
            by_cases hi0 : i = 0
            · subst hi0
              have : s.factories[0] = f := by
                rw [List.getElem?_eq_getElem hi] at hf; exact Option.some.inj hf
              rw [this] at h0
              exact ⟨fi', by rw [List.getElem?_set_self hi], h0⟩
            · have hn : ∀ l, o ≠ .push l := hp'.2.resolve_right hi0
              have ho : o.given = [] := by cases o <;> simp_all [Op.given]
              exact ⟨f, by rw [List.getElem?_set_ne hi0]; exact hf,
                (step_factory s.cont _ f o ho hn out c' fi' h0).2⟩
          obtain ⟨f1, k1, k2⟩ := key
          obtain ⟨f', g1, g2⟩ := one_pusher G as _ f1 hp'.1 k1 _ _ h1
          simp only [List.length_set] at g2
          exact ⟨f', g1, by simp [callsOf, hi, Block.calls, Block.call, k2, g2]⟩
    · simp only [Clones.run, Clones.step, List.getElem?_eq_none (Nat.le_of_not_lt hi), Res.ok_bind] at h
      cases h1 : Clones.run dup s as with
      | panic => simp [h1] at h
      | ok r =>
        obtain ⟨o, s2⟩ := r
        simp only [h1, Res.ok_bind, Res.pure_eq, Res.ok.injEq] at h
        cases h
        obtain ⟨f', g1, g2⟩ := one_pusher G as _ f hp'.1 hf _ _ h1
        exact ⟨f', g1, by simpa [callsOf, hi] using g2⟩

end

/-- **C56**, proved part: if all the elements are pushed through one handle, then after any history of
clones and calls on any handles, what `pop` on any handle evicts was pushed before what it keeps. -/
theorem C56_partial (sz : K × FifoCell V → Nat) (srt srtS : Sorter (K × FifoCell V))
    (hS : ByValue srt) (hS' : ByValue srtS) (cap : Nat) (as : List (CAct K V)) (hp : OnePusher as)
    (hf : Fresh (D := fifo V) (fifoAccess V) sz srt srtS (Array.new cap, (0 : Nat)) (callsOf 1 as))
    (outs) (s) (hrun : Clones.run (D := fifo V) (C := arrayBlock sz srt srtS) fifoClone
        ⟨Array.new cap, [(0 : Nat)]⟩ as = .ok (outs, s))
    (i n : Nat) (hi : i < s.factories.length) :
    ∃ out s', s.step fifoClone (.op i (.pop n)) = .ok (out, s') ∧
      ∀ x ∈ out, ∀ y ∈ (arrayBlock sz srt srtS).contents s'.cont,
        Before (pushedKeys (callsOf 1 as)) x.1 y.1 := by
  obtain ⟨f', h1, h2⟩ := one_pusher (decoratedGet (fifoAccess V) sz srt srtS) as _ (0 : Nat) hp rfl _ _ hrun
  have hk : KeepsSize (D := fifo V) (fifoAccess V) sz (callsOf 1 as) := by
    intro c hc
    have : ∀ (as : List (CAct K V)) n, c ∈ callsOf n as → ∃ o, c = .op o := by
      intro as
      induction as with
      | nil => intro n h; cases h
      | cons a as ih =>
        intro n h
        cases a with
        | clone i => simp only [callsOf] at h; split at h <;> exact ih _ h
        | op i o =>
          simp only [callsOf] at h
          split at h
          · rcases List.mem_cons.1 h with rfl | h
            · exact ⟨o, rfl⟩
            · exact ih _ h
          · exact ih _ h
    obtain ⟨o, rfl⟩ := this as 1 hc
    cases o <;> trivial
  obtain ⟨outs', s1, g1, g2, -⟩ := C39_fifo sz srt srtS hS hS' cap _ hk hf
  replace h2 := h2.symm.trans g1
  cases h2
  obtain ⟨out, s2, g3, g4⟩ := g2 n
  have hst : (decorator (fifo V) (arrayBlock sz srt srtS)).step (s.cont, s.factories[i]) (.pop n) =
      .ok (out, (s2.1, s.factories[i])) :=
    (step_factory s.cont f' s.factories[i] (.pop n) rfl (by simp) out s2.1 s2.2 g3).2
  refine ⟨out, ⟨s2.1, s.factories.set i s.factories[i]⟩, ?_, ?_⟩
  · simp only [Clones.step, List.getElem?_eq_getElem hi]
    simp [hst]
  · intro x hx y hy
    replace hy : y ∈ s2.1.values := hy
    exact g4 x hx (strip (fifo V) y) (List.mem_map_of_mem (f := strip (fifo V)) hy)

/-- Handle 0 is cloned, then pushes keys 1 and 2; the clone pushes key 3, which takes the same rank as
key 1. -/
def c56Acts : List (CAct Nat Nat) :=
  [.clone 0, .op 0 (.push [(1, 0), (2, 0)]), .op 1 (.push [(3, 0)])]

theorem c56_run : ∃ outs s, Clones.run (D := fifo Nat) (C := arrayBlock (fun _ => 1) fifoSorter fifoSorter)
      fifoClone ⟨Array.new 3, [(0 : Nat)]⟩ c56Acts = .ok (outs, s) ∧ 0 < s.factories.length ∧
    ∃ out s', s.step fifoClone (.op 0 (.pop 2)) = .ok (out, s') ∧
      out.map Prod.fst = [1, 3] ∧ s'.cont.values.map Prod.fst = [2] := by
  refine ⟨_, _, rfl, by decide +kernel, _, _, rfl, by decide +kernel, by decide +kernel⟩

/-- The last pushed key is evicted while an older one is kept. -/
theorem C56_false : ¬ C56_full := by
  intro h
  obtain ⟨outs, s, h1, h2, out, s', h3, h4, h5⟩ := c56_run
  have hx : ∃ x ∈ out, x.1 = 3 := by
    have : 3 ∈ out.map Prod.fst := by rw [h4]; decide
    exact (List.mem_map.1 this)
  have hy : ∃ y ∈ s'.cont.values, y.1 = 2 := by
    have : 2 ∈ s'.cont.values.map Prod.fst := by rw [h5]; decide
    exact (List.mem_map.1 this)
  obtain ⟨x, hx, ex⟩ := hx
  obtain ⟨y, hy, ey⟩ := hy
  have := h Nat fifoSorter fifoSorter fifoSorter_byValue fifoSorter_byValue 3 c56Acts (by decide +kernel)
    outs s h1 0 2 h2 out s' h3 x hx y hy
  rw [ex, ey] at this
  have hk : pushedKeys (callsOf 1 c56Acts) = [1, 2, 3] := by decide +kernel
  rw [hk] at this
  obtain ⟨a, b, e, m1, m2, m3⟩ := this
  have hb : b <:+ [1, 2, 3] := ⟨a, e.symm⟩
  simp only [List.suffix_cons_iff, List.suffix_nil] at hb
  rcases hb with rfl | rfl | rfl | rfl
  · exact m2 (by decide)
  · exact m2 (by decide)
  · revert m3; decide
  · revert m3; decide

/-- Pushing through handle 0 only, popping through a clone. -/
def c56Good : List (CAct Nat Nat) :=
  [.clone 0, .op 0 (.push [(1, 0), (2, 0)]), .op 1 (.pop 1), .op 0 (.push [(3, 0)]), .clone 1]

example : OnePusher c56Good ∧ Fresh (D := fifo Nat) (fifoAccess Nat) (fun _ : Nat × FifoCell Nat => 1)
    fifoSorter fifoSorter (Array.new 3, (0 : Nat)) (callsOf 1 c56Good) ∧
    ∃ outs s, Clones.run (D := fifo Nat) (C := arrayBlock (fun _ => 1) fifoSorter fifoSorter) fifoClone
      ⟨Array.new 3, [(0 : Nat)]⟩ c56Good = .ok (outs, s) ∧ s.factories.length = 3 ∧
      s.cont.values.length = 2 :=
  ⟨by simp [c56Good, OnePusher], fresh_of_freshB _ _ _ (by decide +kernel),
    _, _, rfl, by decide +kernel, by decide +kernel⟩

end Byoc.PolicyProps
