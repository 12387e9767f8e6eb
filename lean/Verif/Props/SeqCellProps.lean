import Verif.Proofs.Pins
import Verif.Props.ArrayProps

/-!
# C100: cells of a container shared behind `Sequential`

A thread may hold a cell while other threads use the container.  The threads should see what they would see
if each access through a cell were an access of its own: `get`, dereference, drop (or `get_mut`, write, drop) with nobody
in between, as described by the `GetOps` of the container.
-/

namespace Byoc.SeqCellProps

open Byoc.SeqCells Byoc.Lock ArrayProps
open Byoc.Seq (SCall)

variable {K V P : Type}

/-- The events are those of a sequential execution from `s` to `t` where each access through a cell stands for
itself: see `Accounts`. -/
def Explains {B : Block K V} (G : GetOps B) : B.State → List (CEv K V P) → B.State → Prop
  | s, [], t => t = s
  | s, e :: l, t => ∃ u, Accounts G s u e ∧ Explains G u l t

theorem Explains.snoc {B : Block K V} {G : GetOps B} {l : List (CEv K V P)} {e} : ∀ {s t u : B.State},
    Explains G s l t → Accounts G t u e → Explains G s (l ++ [e]) u := by
  induction l with
  | nil =>
    intro s t u h h'
    replace h : t = s := h
    subst h
    exact ⟨u, h', rfl⟩
  | cons a l ih =>
    rintro s t u ⟨x, h1, h2⟩ h'
    exact ⟨x, h1, ih h2 h'⟩

/-- **C100**, what holds: over a container whose cells are plain pointers into it (`Pins`), if the threads
call any of capacity, size, contains, push, get and get_mut, dereference, write through and drop their cells at any
time, then in every execution each call answers, and each cell shows, what a sequential execution would; the value
written through a cell is the one later accesses to this key see; and dropping a cell never panics. -/
theorem C100_partial {B : Block K V} {X : Cells B} {G : GetOps B} {I : B.State → Prop} (hX : Pins X G I)
    {s₀ : B.State} (h0 : I s₀) {n : Nat} {l : List (CEv K V X.Cell)} {s : CState K V B.State X.Cell}
    (h : CRun X (.new s₀ n) l s) (hg : ∀ i c, .called i c ∈ l → Gentle c) : Explains G s₀ l s.cont := by
  have key : Good X I s ∧ Explains G s₀ l s.cont := by
    induction h with
    | nil =>
      refine ⟨⟨new_inv _ _, h0, ?_⟩, rfl⟩
      intro p hp
      simp only [CState.new, List.mem_replicate] at hp
      rw [hp.2]
      trivial
    | @snoc l s s' i a e _ hs ih =>
      obtain ⟨h1, h2⟩ := ih fun i c hc => hg i c (List.mem_append_left _ hc)
      obtain ⟨h3, h4⟩ := step_good hX h1 hs fun j c he => hg j c (by rw [he]; simp)
      exact ⟨h3, h2.snoc h4⟩
  exact key.2

/-- **C100** for an Array behind a Sequential. -/
theorem C100_array_partial [LinearOrder K] (sz : K × V → Nat) (srt srtS : Sorter (K × V)) (cap n : Nat)
    {l : List (CEv K V Nat)} {s : CState K V (Array K V) Nat}
    (h : CRun (arrayHandles sz srt srtS) (.new (Array.new cap) n) l s) (hg : ∀ i c, .called i c ∈ l → Gentle c) :
    Explains (arrayGet sz srt srtS) (Array.new cap) l s.cont :=
  C100_partial (array_pins sz srt srtS) trivial h hg

/-- **C100** for an Associative of Batches of Arrays behind a Sequential. -/
theorem C100_associative_partial [LinearOrder K] (hash : K → Nat) (sz : K × V → Nat) (srt srtS : Sorter (K × V))
    (caps : List (List Nat)) (hne : caps ≠ []) (n : Nat) {l : List (CEv K V (Nat × Nat × Nat))}
    {s : CState K V (List (List (Array K V))) (Nat × Nat × Nat)}
    (h : CRun (associativeHandles hash (batchHandles (arrayHandles sz srt srtS)))
      (.new (caps.map fun c => c.map Array.new) n) l s) (hg : ∀ i c, .called i c ∈ l → Gentle c) :
    Explains (associativeGet hash (batchGet (arrayGet sz srt srtS))) (caps.map fun c => c.map Array.new) l s.cont :=
  C100_partial (associative_pins (batch_pins (array_pins sz srt srtS)) hash)
    ⟨fun h' => hne (List.map_eq_nil_iff.1 h'), fun _ _ _ _ => trivial⟩ h hg

/-! ## What does not hold -/

/-- Membership in a list that computes. -/
macro "here" : tactic => `(tactic| repeat (first | exact List.Mem.head _ | apply List.Mem.tail))

/-- Perform a schedule. -/
def play {B : Block K V} (X : Cells B) : CState K V B.State X.Cell → List (Nat × CAct K V) →
    Option (List (CEv K V X.Cell) × CState K V B.State X.Cell)
  | s, [] => some ([], s)
  | s, (i, a) :: l => match cstep X s i a with
    | some (s', e) => (play X s' l).map fun x => (e :: x.1, x.2)
    | none => none

theorem play_run {B : Block K V} {X : Cells B} {s₀ : CState K V B.State X.Cell} {as} :
    ∀ {s l l' s'}, CRun X s₀ l s → play X s as = some (l', s') → CRun X s₀ (l ++ l') s' := by
  induction as with
  | nil =>
    intro s l l' s' h hp
    simp only [play, Option.some.injEq, Prod.mk.injEq] at hp
    obtain ⟨rfl, rfl⟩ := hp
    simpa using h
  | cons x as ih =>
    intro s l l' s' h hp
    obtain ⟨i, a⟩ := x
    simp only [play] at hp
    split at hp
    · rename_i s1 e hs
      simp only [Option.map_eq_some_iff] at hp
      obtain ⟨⟨l2, s2⟩, h2, h3⟩ := hp
      simp only [Prod.mk.injEq] at h3
      obtain ⟨rfl, rfl⟩ := h3
      simpa using ih (h.snoc hs) h2
    · simp at hp

/-- A whole call that ends without a cell. -/
def whole (i : Nat) (c : SCall K V) : List (Nat × CAct K V) :=
  [(i, .call c), (i, .go), (i, .go), (i, .go), (i, .go), (i, .go)]

/-- A call of `get` or `get_mut` that finds its key. -/
def hold (i : Nat) (c : SCall K V) : List (Nat × CAct K V) := [(i, .call c), (i, .go), (i, .go), (i, .go), (i, .go)]

abbrev Tree := btreeBlock (K := Nat) (V := Nat) (fun _ => 1)
abbrev treeCells : Cells Tree := btreeHandles (fun _ => 1)
abbrev arr := arrayBlock (K := Nat) (V := Nat) (fun _ => 1) natSorter natSorter
abbrev arrCells : Cells arr := arrayHandles (fun _ => 1) natSorter natSorter
abbrev exCells : Cells (exclusive arr arr) := exclusiveHandles arrCells
abbrev exGet : GetOps (exclusive arr arr) := exclusiveGet (arrayGet (fun _ => 1) natSorter natSorter)

/-- The full statement: for an Array, a BTree and an Exclusive of Arrays, whatever the threads call. -/
def C100_full : Prop :=
  ∀ (n a b : Nat),
    (∀ l s, CRun arrCells (.new (Array.new a) n) l s →
      Explains (arrayGet (fun _ => 1) natSorter natSorter) (Array.new a) l s.cont) ∧
    (∀ l s, CRun treeCells (.new (BTree.new a) n) l s → Explains (btreeGet (fun _ => 1)) (BTree.new a) l s.cont) ∧
    (∀ l s, CRun exCells (.new (Array.new a, Array.new b) n) l s → Explains exGet (Array.new a, Array.new b) l s.cont)

/-- While a thread holds a cell of a BTree (even a read-only one), its element is not in the container: others do not
find it. -/
def hidden : List (Nat × CAct Nat Nat) :=
  whole 0 (.op (.push [(1, 7)])) ++ hold 0 (.get 1) ++ [(1, .call (.get 1)), (1, .go), (1, .go), (1, .go)]

theorem C100_btree_hidden : ∃ l s, CRun treeCells (.new (BTree.new 2) 2) l s ∧
    (∀ i c, .called i c ∈ l → (∃ k, c = .get k) ∨ c = .op (.push [(1, 7)])) ∧
    .executed 0 (.get 1) (.cell (some (1, 7))) ∈ l ∧ .executed 1 (.get 1) (.cell none) ∈ l := by
  refine ⟨_, _, by simpa using play_run (X := treeCells) (as := hidden) .nil rfl, ?_, ?_, ?_⟩
  · intro i c h
    simp only [List.mem_cons, CEv.called.injEq, reduceCtorEq, false_or, List.not_mem_nil, or_false] at h
    rcases h with ⟨_, rfl⟩ | ⟨_, rfl⟩ | ⟨_, rfl⟩ <;> simp
  · here
  · here

/-- The only container an event may lead to, if it is the event of a sequential execution. -/
def follow {B : Block K V} (G : GetOps B) [DecidableEq V] (s : B.State) : CEv K V P → Option B.State
  | .executed _ (.op o) r => match B.observe s o, r with
    | .ok (.bool b, t), .obs (.bool b') => if b = b' then some t else none
    | .ok (_, t), _ => some t
    | .panic, _ => none
  | .executed _ (.get k) r => match G.get s k id, r with
    | .ok (v, t), .cell c => if c.isSome = v.isSome then some t else none
    | _, _ => none
  | .executed _ (.getMut k) r => match G.getMut s k id, r with
    | .ok (v, t), .cell c => if c.isSome = v.isSome then some t else none
    | _, _ => none
  | .read _ k v => match G.get s k id with
    | .ok (u, t) => if u = v then some t else none
    | _ => none
  | .wrote _ k v => match G.getMut s k (fun _ => v) with
    | .ok (some _, t) => some t
    | _ => none
  | .dropPanicked _ _ => none
  | _ => some s

def follows {B : Block K V} (G : GetOps B) [DecidableEq V] (s : B.State) : List (CEv K V P) → Option B.State
  | [] => some s
  | e :: l => (follow G s e).bind fun t => follows G t l

theorem follow_of {B : Block K V} {G : GetOps B} [DecidableEq V] {s t : B.State} {e : CEv K V P}
    (h : Accounts G s t e) : follow G s e = some t := by
  cases e with
  | executed i c r =>
    cases c with
    | capacity => exact congrArg some h.2.symm
    | size => exact congrArg some h.2.symm
    | op o =>
      obtain ⟨x, rfl, h⟩ := h
      simp only [follow, h]
      cases x <;> simp
    | get k =>
      obtain ⟨c, v, rfl, h, hc⟩ := h
      simp [follow, h, hc]
    | getMut k =>
      obtain ⟨c, v, rfl, h, hc⟩ := h
      simp [follow, h, hc]
  | read i k v =>
    obtain ⟨u, rfl, h⟩ := h
    simp [follow, h]
  | wrote i k v =>
    obtain ⟨u, h⟩ := h
    simp [follow, h]
  | dropPanicked i k => exact h.elim
  | _ => exact congrArg some (Eq.symm h)

theorem follows_of {B : Block K V} {G : GetOps B} [DecidableEq V] {l : List (CEv K V P)} : ∀ {s t : B.State},
    Explains G s l t → follows G s l = some t := by
  induction l with
  | nil => intro s t h; exact congrArg some (Eq.symm h)
  | cons e l ih =>
    rintro s t ⟨u, h1, h2⟩
    simp only [follows, follow_of h1, Option.bind_some]
    exact ih h2

/-- … so this execution is not the one of any sequential order: with a BTree, read-only accesses of other threads
disturb each other. -/
theorem C100_btree_false : ∃ l s, CRun treeCells (.new (BTree.new 2) 2) l s ∧
    (∀ i c, .called i c ∈ l → Gentle c) ∧ ¬ ∃ t, Explains (btreeGet (fun _ => 1)) (BTree.new 2) l t := by
  refine ⟨_, _, by simpa using play_run (X := treeCells) (as := hidden) .nil rfl, ?_, ?_⟩
  · intro i c h
    simp only [List.mem_cons, CEv.called.injEq, reduceCtorEq, false_or, List.not_mem_nil, or_false] at h
    rcases h with ⟨_, rfl⟩ | ⟨_, rfl⟩ | ⟨_, rfl⟩ <;> trivial
  · rintro ⟨t, h⟩
    have h' := follows_of h
    replace h' : none = some t := h'
    cases h'

/-- A read-only access of another thread moves the element a cell points to: the cell obtained for key 1 shows
the value of key 2. -/
def moved : List (Nat × CAct Nat Nat) :=
  whole 0 (.op (.push [(2, 20)])) ++ whole 0 (.op (.push [(1, 10)])) ++ hold 0 (.get 1) ++ hold 1 (.get 2) ++ [(0, .deref)]

theorem C100_exclusive_dangling : ∃ l s, CRun exCells (.new (Array.new 1, Array.new 1) 2) l s ∧
    (∀ i c, .called i c ∈ l → Gentle c) ∧ .read 0 1 (some 20) ∈ l ∧
    (∀ i k v, .wrote i k v ∉ l) ∧ ¬ ∃ t, Explains exGet (Array.new 1, Array.new 1) l t := by
  refine ⟨_, _, by simpa using play_run (X := exCells) (as := moved) .nil rfl, ?_, ?_, ?_, ?_⟩
  · intro i c h
    simp only [List.mem_cons, CEv.called.injEq, reduceCtorEq, false_or, List.not_mem_nil, or_false] at h
    rcases h with ⟨_, rfl⟩ | ⟨_, rfl⟩ | ⟨_, rfl⟩ | ⟨_, rfl⟩ <;> trivial
  · here
  · simp
  · rintro ⟨t, h⟩
    have h' := follows_of h
    replace h' : none = some t := h'
    cases h'

/-- The lock is released before the element of a dropped cell goes back to the BTree: another thread is inside
`push` at the same time … -/
def racing : List (Nat × CAct Nat Nat) :=
  whole 0 (.op (.push [(1, 7)])) ++ hold 0 (.getMut 1) ++ [(0, .dropCell)] ++
  [(1, .call (.op (.push [(2, 8)]))), (1, .go), (1, .go)]

/-- … the BTree is written by both threads: thread 0 takes its step (the write-back) whatever thread 1 is doing. -/
theorem C100_btree_race : ∃ l s snap, CRun treeCells (.new (BTree.new 1) 2) l s ∧
    s.threads[0]? = some (.dropping 1 (1, 7)) ∧ s.threads[1]? = some (.inside (.op (.push [(2, 8)])) snap) ∧
    (∃ x, cstep treeCells s 0 .go = some x) ∧ ∃ x, cstep treeCells s 1 .go = some x :=
  ⟨_, _, _, by simpa using play_run (X := treeCells) (as := racing) .nil rfl, rfl, rfl, ⟨_, rfl⟩, ⟨_, rfl⟩⟩

/-- … and if the push wins, dropping the cell panics: element 2, accepted by push, is evicted and lost. -/
theorem C100_btree_drop_panics : ∃ l s, CRun treeCells (.new (BTree.new 1) 2) l s ∧
    .returned 1 (.op (.push [(2, 8)])) (.obs (.many [])) ∈ l ∧ .dropPanicked 0 1 ∈ l := by
  have hr := play_run (X := treeCells) (as := racing ++ [(1, .go), (1, .go), (1, .go), (0, .go)])
    (.nil (s₀ := .new (BTree.new 1) 2)) rfl
  exact ⟨_, _, hr, by here, by here⟩

/-- `flush` waits only for cells that may write: it empties an Array under a read-only cell, which then points to
nothing. -/
def emptied : List (Nat × CAct Nat Nat) :=
  whole 0 (.op (.push [(1, 7)])) ++ hold 0 (.get 1) ++ whole 1 (.op .flush) ++ [(0, .deref)]

theorem C100_array_flush : ∃ l s, CRun arrCells (.new (Array.new 2) 2) l s ∧ .read 0 1 none ∈ l ∧
    ¬ ∃ t, Explains (arrayGet (fun _ => 1) natSorter natSorter) (Array.new 2) l t := by
  refine ⟨_, _, by simpa using play_run (X := arrCells) (as := emptied) .nil rfl, ?_, ?_⟩
  · here
  · rintro ⟨t, h⟩
    -- the last event is a read of nothing
    have key : ∀ (l : List (CEv Nat Nat Nat)) (s t : arr.State), .read 0 1 none ∈ l →
        ¬ Explains (arrayGet (fun _ => 1) natSorter natSorter) s l t := by
      intro l
      induction l with
      | nil => intro s t h; simp at h
      | cons e l ih =>
        rintro s t hm ⟨u, h1, h2⟩
        rcases List.mem_cons.1 hm with rfl | hm
        · obtain ⟨v, hv, -⟩ := h1
          simp at hv
        · exact ih u t hm h2
    exact key _ _ _ (by here) h

theorem C100_false : ¬ C100_full := by
  intro h
  obtain ⟨l, s, h1, -, h2⟩ := C100_btree_false
  exact h2 ⟨_, (h 2 2 0).2.1 l s h1⟩

/-! ## A BTree cell used while nobody else uses the container -/

theorem step_inside {B : Block K V} {X : Cells B} {s : CState K V B.State X.Cell} {i : Nat} {c snap r t}
    (hs : s.threads[i]? = some (.inside c snap)) (he : exec X c snap = .ok (r, t)) :
    cstep X s i .go = some ({ s with cont := if c.write then t else s.cont }.setPc i (.leaving c r), .executed i c r) := by
  simp only [cstep, hs, he]

theorem step_dropping {B : Block K V} {X : Cells B} {s : CState K V B.State X.Cell} {i : Nat} {k p t}
    (hs : s.threads[i]? = some (.dropping k p)) (he : X.drop s.cont p = .ok t) :
    cstep X s i .go = some ({ s with cont := t }.setPc i .idle, .dropped i k) := by
  simp only [cstep, hs, he]

/-- `get_mut(k)`, read, write, read, drop, by a thread alone, is what `GetOps` says of the BTree: the cell shows the value, then the one written, which goes back to the
container when the cell is dropped. -/
theorem C100_btree_alone_partial [LinearOrder K] [LinearOrder V] (sz : K × V → Nat) (t u : BTree K V) (k : K) (v w : V)
    (h : (btreeGet sz).getMut t k (fun _ => w) = .ok (some v, u)) :
    ∃ l s, CRun (btreeHandles sz) (.new t 1) l s ∧ s.cont = u ∧ .read 0 k (some v) ∈ l ∧ .read 0 k (some w) ∈ l ∧
      .dropped 0 k ∈ l := by
  replace h : t.getMut sz k (fun _ => w) = .ok (some v, u) := h
  unfold BTree.getMut at h
  cases h1 : t.take sz k with
  | panic => rw [h1] at h; cases h
  | ok y =>
    obtain ⟨o, t1⟩ := y
    rw [h1] at h
    cases o with
    | none => cases h
    | some e =>
      obtain ⟨k', v'⟩ := e
      have hk : k' = k := by
        unfold BTree.take at h1
        split at h1
        · cases h1
        · rename_i x m heq
          cases hs : Res.sub t.totalSize (sz (k, x)) with
          | panic => rw [hs] at h1; cases h1
          | ok z => rw [hs] at h1; cases h1; rfl
      subst hk
      simp only [Res.ok_bind] at h
      cases h2 : t1.push sz [(k', w)] with
      | panic => rw [h2] at h; cases h
      | ok z =>
        obtain ⟨out, t2⟩ := z
        rw [h2] at h
        simp only [Res.ok_bind] at h
        split at h
        · rename_i hout
          cases h
          subst hout
          have g1 : (btreeHandles sz).getMut t k' = .ok (some (k', v), t1) := h1
          have g2 : (btreeHandles sz).drop t1 (k', w) = .ok u := by
            show (do let (out, t) ← t1.push sz [(k', w)]; if out = [] then pure t else .panic : Res _) = _
            rw [h2]; rfl
          have a1 : exec (btreeHandles sz) (.getMut k') t = .ok (.cell (some (k', v)), t1) := by
            simp only [exec, g1, Res.ok_bind, Res.pure_eq]
          have r0 : CRun (btreeHandles sz) (.new t 1) [] (.new t 1) := .nil
          have r1 := r0.snoc (i := 0) (a := .call (.getMut k')) rfl
          have r2 := r1.snoc (i := 0) (a := .go) rfl
          have r3 := r2.snoc (i := 0) (a := .go) rfl
          have r4 := r3.snoc (i := 0) (a := .go) (step_inside rfl a1)
          have r5 := r4.snoc (i := 0) (a := .go) rfl
          have r6 := r5.snoc (i := 0) (a := .deref) rfl
          have r7 := r6.snoc (i := 0) (a := .write w) rfl
          have r8 := r7.snoc (i := 0) (a := .deref) rfl
          have r9 := r8.snoc (i := 0) (a := .dropCell) rfl
          have r10 := r9.snoc (i := 0) (a := .go) (step_dropping rfl g2)
          simp only [List.nil_append, List.cons_append] at r10
          exact ⟨_, _, r10, rfl, by here, by here, by here⟩
        · cases h

/-! ## Non-vacuity -/

example : (btreeGet (K := Nat) (V := Nat) (fun _ => 1)).getMut ⟨2, 1, [(7, 1)], [(1, 7)]⟩ 1 (fun _ => 9) =
    .ok (some 7, ⟨2, 1, [(9, 1)], [(1, 9)]⟩) := rfl


/-- Thread 0 pushes, both threads hold read cells at the same time, then thread 1 writes through a cell and thread 0
reads what it wrote. -/
def shared : List (Nat × CAct Nat Nat) :=
  whole 0 (.op (.push [(1, 7)])) ++ hold 0 (.get 1) ++ hold 1 (.get 1) ++
  [(0, .deref), (1, .deref), (0, .dropCell), (0, .go), (1, .dropCell), (1, .go)] ++
  hold 1 (.getMut 1) ++ [(1, .write 9), (1, .dropCell), (1, .go)] ++ hold 0 (.get 1) ++ [(0, .deref)]

example : ∃ l s, CRun arrCells (.new (Array.new 2) 2) l s ∧ (∀ i c, .called i c ∈ l → Gentle c) ∧
    .read 1 1 (some 7) ∈ l ∧ .wrote 1 1 9 ∈ l ∧ .read 0 1 (some 9) ∈ l ∧
    Explains (arrayGet (fun _ => 1) natSorter natSorter) (Array.new 2) l s.cont := by
  have key : ∃ l s, CRun arrCells (.new (Array.new 2) 2) l s ∧ (∀ i c, .called i c ∈ l → Gentle c) ∧
      .read 1 1 (some 7) ∈ l ∧ .wrote 1 1 9 ∈ l ∧ .read 0 1 (some 9) ∈ l := by
    refine ⟨_, _, by simpa using play_run (X := arrCells) (as := shared) .nil rfl, ?_, by here, by here, by here⟩
    intro i c h
    simp only [List.mem_cons, CEv.called.injEq, reduceCtorEq, false_or, List.not_mem_nil, or_false] at h
    rcases h with ⟨_, rfl⟩ | ⟨_, rfl⟩ | ⟨_, rfl⟩ | ⟨_, rfl⟩ | ⟨_, rfl⟩ <;> trivial
  obtain ⟨l, s, h1, h2, h3, h4, h5⟩ := key
  exact ⟨l, s, h1, h2, h3, h4, h5, C100_array_partial _ _ _ 2 2 h1 h2⟩

end Byoc.SeqCellProps
