import Verif.Proofs.Cells
import Verif.Props.PolicyProps
import Verif.Props.CompressedProps

/-!
# C83 – C85: cells used any number of times, policies on a `Compressed`
-/

namespace Byoc.CellProps

open Policy ArrayProps PolicyProps

variable {K V T : Type} [LinearOrder K]

/-! ## C83: on an `Array` -/

/-- Each use of a cell as a lookup of its own. -/
def asLookups : Session K V → List (Call K V)
  | .op o => [.op o]
  | .get k n => List.replicate n (.get k id)
  | .getMut k us => us.map fun u => .getMut k u.apply

/-- The cells of a decorated `Array`. -/
abbrev decoratedCells {D : Decoration V} (A : Access D) (sz : K × D.Item → Nat)
    (srt srtS : Sorter (K × D.Item)) : CellOps (decorated D sz srt srtS) :=
  decoratorCells A (arrayCells sz srt srtS)

section
variable {D : Decoration V} {A : Access D} {sz : K × D.Item → Nat} {srt srtS : Sorter (K × D.Item)}

theorem touch_eff (u : Use V) : u.touch.eff = u.apply := by cases u <;> rfl

omit [LinearOrder K] in
theorem calls_append {B : Block K V} (G : GetOps B) (xs ys : List (Call K V)) : ∀ s,
    B.calls G s (xs ++ ys) = (do
      let (o1, s) ← B.calls G s xs
      let (o2, s) ← B.calls G s ys
      pure (o1 ++ o2, s)) := by
  induction xs with
  | nil =>
    intro s
    simp only [List.nil_append, Block.calls, Res.ok_bind]
    cases B.calls G s ys <;> rfl
  | cons x xs ih =>
    intro s
    simp only [List.cons_append, Block.calls]
    cases B.call G s x with
    | panic => rfl
    | ok r =>
      simp only [Res.ok_bind, ih]
      cases B.calls G r.2 xs with
      | panic => rfl
      | ok q =>
        simp only [Res.ok_bind, Res.pure_eq]
        cases B.calls G q.2 ys with
        | panic => rfl
        | ok p => simp only [Res.ok_bind, List.append_assoc]

theorem lookups (mk : (V → V) → Call K V) (k : K) (hmk : ∀ f, mk f = .get k f ∨ mk f = .getMut k f)
    (ts : List (Touch V)) : ∀ s : (decorated D sz srt srtS).State,
    (decorated D sz srt srtS).calls (decoratedGet A sz srt srtS) s (ts.map fun t => mk t.eff) =
      .ok ([], ((Array.getMut s.1 k (effect (A.touches s.2 ts))).2,
        if (Array.getMut s.1 k (effect (A.touches s.2 ts))).1.isSome then A.ticks s.2 ts else s.2)) := by
  induction ts with
  | nil =>
    intro s
    have := Array.getMut_nil s.1 k
    simp only [Access.touches, List.map_nil, Block.calls, Access.ticks]
    rw [this]
    exact congrArg (fun x => Res.ok (([] : List (K × V)), ((s.1, x) : _ × D.Factory))) (ite_self _).symm
  | cons t ts ih =>
    intro s
    have hcall : (decorated D sz srt srtS).call (decoratedGet A sz srt srtS) s (mk t.eff) =
        .ok ([], ((Array.getMut s.1 k (A.access s.2 t.eff)).2,
          if (Array.getMut s.1 k (A.access s.2 t.eff)).1.isSome then A.tick s.2 else s.2)) := by
      rcases hmk t.eff with h | h <;> rw [h] <;> rfl
    simp only [List.map_cons, Block.calls, hcall, Res.ok_bind, ih]
    have e : effect (A.touches s.2 (t :: ts)) =
        fun v => effect (A.touches (A.tick s.2) ts) (A.access s.2 t.eff v) := rfl
    have hone : ∀ (a : Array K D.Item) (f g : D.Item → D.Item),
        (a.getMut k f).1.isSome = (a.getMut k g).1.isSome := by
      intro a f g
      unfold Array.getMut
      cases findKey a.values k with
      | none => rfl
      | some i => simp only; cases a.values[i]? <;> rfl
    by_cases hs : (Array.getMut s.1 k (A.access s.2 t.eff)).1.isSome = true
    · simp only [hs, if_true]
      have h2 := Array.getMut_getMut s.1 k (A.access s.2 t.eff) (effect (A.touches (A.tick s.2) ts))
      rw [h2.2, hs, if_pos rfl, h2.1, e]
      rw [hone s.1 _ (A.access s.2 t.eff), hs, if_pos rfl]
      rfl
    · have hs' : (Array.getMut s.1 k (A.access s.2 t.eff)).1.isSome = false := by simpa using hs
      simp only [hs', Bool.false_eq_true, if_false]
      have hno : ∀ f, Array.getMut s.1 k f = (none, s.1) := by
        intro f
        unfold Array.getMut at hs' ⊢
        cases hf : findKey s.1.values k with
        | none => rfl
        | some i =>
          rw [hf] at hs'
          simp only at hs' ⊢
          cases hi : s.1.values[i]? with
          | none => rfl
          | some e => rw [hi] at hs'; simp at hs'
      simp [hno]

theorem session_eq (s : (decorated D sz srt srtS).State) (x : Session K V) :
    Block.session (decoratedCells A sz srt srtS) s x =
      (decorated D sz srt srtS).calls (decoratedGet A sz srt srtS) s (asLookups x) := by
  cases x with
  | op o =>
    simp only [Block.session, asLookups, Block.calls, Block.call]
    cases (decorated D sz srt srtS).step s o with
    | panic => rfl
    | ok r => simp
  | get k n =>
    have := lookups (A := A) (srt := srt) (srtS := srtS) (sz := sz) (fun f => .get k f) k
      (fun _ => .inl rfl) (List.replicate n Use.read.touch) s
    rw [List.map_replicate] at this
    exact this.symm
  | getMut k us =>
    have := lookups (A := A) (srt := srt) (srtS := srtS) (sz := sz) (fun f => .getMut k f) k
      (fun _ => .inr rfl) (us.map Use.touch) s
    rw [List.map_map] at this
    have e : (us.map fun u => (Call.getMut k u.apply : Call K V)) =
        us.map ((fun t : Touch V => Call.getMut k t.eff) ∘ Use.touch) := by
      apply List.map_congr_left
      intro u _
      simp [touch_eff]
    simp only [asLookups]
    rw [e]
    exact this.symm

/-- **C83.** On an `Array` decorated with any policy, after any history, using the cell of a lookup `n`
times (reading or writing) is the same as `n` lookups whose cell is used once; a cell which is not used
leaves no trace. -/
theorem C83_each_use_is_a_lookup (xs : List (Session K V)) : ∀ s : (decorated D sz srt srtS).State,
    Block.sessions (decoratedCells A sz srt srtS) s xs =
      (decorated D sz srt srtS).calls (decoratedGet A sz srt srtS) s (xs.flatMap asLookups) := by
  induction xs with
  | nil => intro s; rfl
  | cons x xs ih =>
    intro s
    simp only [Block.sessions, List.flatMap_cons, calls_append, session_eq, ih]

end

/-- The value after the uses of a cell. -/
def final (us : List (Use V)) (v : V) : V := us.foldl (fun v u => u.apply v) v

omit [LinearOrder K] in
theorem effect_touch (us : List (Use V)) : ∀ v, effect (us.map Use.touch) v = final us v := by
  induction us with
  | nil => intro v; rfl
  | cons u us ih =>
    intro v
    simp only [List.map_cons, effect, touch_eff, ih]
    rfl

theorem effect_reads (n : Nat) (v : V) : effect (List.replicate n (Use.read.touch : Touch V)) v = v := by
  induction n with
  | zero => rfl
  | succ n ih => simp only [List.replicate_succ, effect]; exact ih

/-- The keys used by a session: pushed, or looked up with a cell used at least once. -/
def usedBy : Session K V → List K
  | .op o => o.given.map Prod.fst
  | .get k n => if n = 0 then [] else [k]
  | .getMut k us => if us.isEmpty then [] else [k]

/-- The keys pushed by a session. -/
def pushedBy : Session K V → List K
  | .op o => o.given.map Prod.fst
  | _ => []

omit [LinearOrder K] in
theorem usedBy_eq (x : Session K V) : usedIn true (fun _ => true) (fun _ => true) x = usedBy x := by
  cases x with
  | op o => rfl
  | get k n => by_cases h : n = 0 <;> simp [usedIn, usedBy, h]
  | getMut k us => cases us <;> simp [usedIn, usedBy]

omit [LinearOrder K] in
theorem pushedBy_eq (f g : List Bool → Bool) (x : Session K V) : usedIn false f g x = pushedBy x := by
  cases x <;> rfl

section
variable {D : Decoration V} {A : Access D}

/-- The size of an element does not change when its cell is used so. -/
def SameSize (A : Access D) (sz : K × D.Item → Nat) (ts : List (Touch V)) : Prop :=
  ∀ fac k i, sz (k, effect (A.touches fac ts) i) = sz (k, i)

/-- The state of a decorated `Array` after a history. -/
theorem array_history {sz : K × D.Item → Nat} {srt srtS : Sorter (K × D.Item)} {stamp : D.Item → T}
    {clock : Nat → T} {read : D.Factory → Nat} {touch : Bool} (hD : Stamps D stamp clock read)
    (hA : Accesses D A stamp clock read touch) (cap : Nat) (fac : D.Factory) (xs : List (Session K V))
    (hk : ∀ x ∈ xs, Session.Within (SameSize A sz) x)
    (hf : Block.FreshSessions (decoratedCells A sz srt srtS) (decorated D sz srt srtS).contents
      (Array.new cap, fac) xs) :
    ∃ outs s, Block.sessions (decoratedCells A sz srt srtS) (Array.new cap, fac) xs = .ok (outs, s) ∧
      Array.Inv sz s.1 ∧ (s.1.values.map Prod.fst).Nodup ∧
      Ranked stamp clock (read s.2) s.1.values
        (xs.flatMap (usedIn touch (fun _ => true) (fun _ => true))) := by
  have hL := (Array.lawful sz srt srtS).distinctKeys
  have hG := Array.getLawful sz srt srtS
  obtain ⟨outs, s, h1, h2, -, h4⟩ := ranked_sessions (A := A) (G := arrayCells sz srt srtS) (h := [])
    hD hA (Lawful.keeps hL fun s l hs hn => by
      obtain ⟨out, s', g1, g2, g3, g4⟩ := (Array.lawful sz srt srtS).push s l hs.1 trivial
      exact ⟨out, s', g1, ⟨g2, nodup_left g4 hn⟩, g3, g4⟩) (fun s hs => hs.2)
    hG.get.cellLaw hG.getMut.cellLaw xs
    (fun x hx => by
      have := hk x hx
      cases x with
      | op o => trivial
      | get k n => exact fun fac _ => this fac
      | getMut k us => exact fun fac _ => this fac)
    (elems := (decorated D sz srt srtS).contents) (fun _ _ => List.Perm.refl _)
    (Array.new cap, fac) ⟨Array.new_inv sz cap, by simp [Array.new]⟩
    (by simpa [Array.new] using Ranked.nil) (le_refl _) hf
  exact ⟨outs, s, h1, h2.1, h2.2, by simpa using h4⟩

end

omit [LinearOrder K] in
theorem lru_sameSize {clock : Nat → T} {sz : K × LruCell V T → Nat}
    (hsz : ∀ k v t t', sz (k, ⟨v, t⟩) = sz (k, ⟨v, t'⟩)) {xs : List (Session K V)}
    (hk : ∀ k us, .getMut k us ∈ xs → ∀ k' v t, sz (k', ⟨final us v, t⟩) = sz (k', ⟨v, t⟩)) :
    ∀ x ∈ xs, Session.Within (SameSize (D := lru V clock) (lruAccess V clock) sz) x := by
  have hcell : ∀ (ts : List (Touch V)), (∀ k' v t, sz (k', ⟨effect ts v, t⟩) = sz (k', ⟨v, t⟩)) →
      SameSize (D := lru V clock) (lruAccess V clock) sz ts := by
    intro ts hts fac k' c
    have h1 : LruCell.value (effect ((lruAccess V clock).touches fac ts) c) = effect ts (LruCell.value c) :=
      effect_unwrap (A := lruAccess V clock) (fun _ _ _ => rfl) ts fac c
    have h2 := hsz k' (LruCell.value (effect ((lruAccess V clock).touches fac ts) c))
      (LruCell.timestamp (effect ((lruAccess V clock).touches fac ts) c)) (LruCell.timestamp c)
    exact h2.trans ((congrArg (fun v => sz (k', ⟨v, LruCell.timestamp c⟩)) h1).trans (hts k' _ _))
  intro x hx
  cases x with
  | op o => trivial
  | get k n => exact hcell _ (fun k' v t => by rw [effect_reads])
  | getMut k us => exact hcell _ (fun k' v t => by rw [effect_touch]; exact hk k us hx k' v t)

theorem fifo_effect (ts : List (Touch V)) (fac : Nat) (c : FifoCell V) :
    effect ((fifoAccess V).touches fac ts) c =
      (⟨effect ts (FifoCell.value c), FifoCell.counter c⟩ : FifoCell V) := by
  have h1 : FifoCell.value (effect ((fifoAccess V).touches fac ts) c) = effect ts (FifoCell.value c) :=
    effect_unwrap (A := fifoAccess V) (fun _ _ _ => rfl) ts fac c
  have h2 : FifoCell.counter (effect ((fifoAccess V).touches fac ts) c) = FifoCell.counter c :=
    (touches_same fifo_accesses ts fac c).2
  rw [← h1, ← h2]
  rfl

omit [LinearOrder K] in
theorem fifo_wrapAll (l : List (K × V)) : ∀ fac : Nat, ∀ e ∈ (wrapAll (fifo V) fac l).1,
    ∃ e' ∈ l, ∃ t < fac + l.length, e = (e'.1, (⟨e'.2, t⟩ : FifoCell V)) := by
  induction l with
  | nil => intro fac e he; simp [wrapAll] at he
  | cons x l ih =>
    intro fac e he
    rcases List.mem_cons.1 (show e ∈ _ :: _ from he) with h | h
    · exact ⟨x, by simp, fac, by simp, h⟩
    · obtain ⟨e', h1, t, ht, h2⟩ := ih _ e h
      exact ⟨e', by simp [h1], t, by simp only [List.length_cons]; omega, h2⟩

omit [LinearOrder K] in
theorem lru_wrapAll (clock : Nat → T) (l : List (K × V)) : ∀ fac : Nat,
    ∀ e ∈ (wrapAll (lru V clock) fac l).1,
    ∃ e' ∈ l, ∃ n < fac + l.length, e = (e'.1, (⟨e'.2, clock n⟩ : LruCell V T)) := by
  induction l with
  | nil => intro fac e he; simp [wrapAll] at he
  | cons x l ih =>
    intro fac e he
    rcases List.mem_cons.1 (show e ∈ _ :: _ from he) with h | h
    · exact ⟨x, by simp, fac, by simp, h⟩
    · obtain ⟨e', h1, t, ht, h2⟩ := ih _ e h
      exact ⟨e', by simp [h1], t, by simp only [List.length_cons]; omega, h2⟩

omit [LinearOrder K] in
theorem fifo_sameSize {sz : K × FifoCell V → Nat} {xs : List (Session K V)}
    (hk : ∀ k us, .getMut k us ∈ xs → ∀ k' v t, sz (k', ⟨final us v, t⟩) = sz (k', ⟨v, t⟩)) :
    ∀ x ∈ xs, Session.Within (SameSize (D := fifo V) (fifoAccess V) sz) x := by
  have hcell : ∀ (ts : List (Touch V)), (∀ k' v t, sz (k', ⟨effect ts v, t⟩) = sz (k', ⟨v, t⟩)) →
      SameSize (D := fifo V) (fifoAccess V) sz ts := by
    intro ts hts fac k' c
    have h3 := fifo_effect ts fac c
    exact (congrArg (fun i => sz (k', i)) h3).trans (hts k' _ _)
  intro x hx
  cases x with
  | op o => trivial
  | get k n => exact hcell _ (fun k' v t => by rw [effect_reads])
  | getMut k us => exact hcell _ (fun k' v t => by rw [effect_touch]; exact hk k us hx k' v t)

/-- **C83, `Lru`.** After any history in which cells are used any number of times, everything evicted by
`pop`, or by a further `push`, was last used before everything kept: however many times a cell is used it
counts as one use, and a cell that is not used does not count. -/
theorem C83_lru [LinearOrder T] (clock : Nat → T) (hm : StrictMono clock)
    (sz : K × LruCell V T → Nat) (hsz : ∀ k v t t', sz (k, ⟨v, t⟩) = sz (k, ⟨v, t'⟩))
    (srt srtS : Sorter (K × LruCell V T)) (hS : ByValue srt) (hS' : ByValue srtS) (cap : Nat)
    (xs : List (Session K V))
    (hk : ∀ k us, .getMut k us ∈ xs → ∀ k' v t, sz (k', ⟨final us v, t⟩) = sz (k', ⟨v, t⟩))
    (hf : Block.FreshSessions (decoratedCells (D := lru V clock) (lruAccess V clock) sz srt srtS)
      (decorated (lru V clock) sz srt srtS).contents (Array.new cap, (0 : Nat)) xs) :
    ∃ outs s, Block.sessions (decoratedCells (D := lru V clock) (lruAccess V clock) sz srt srtS)
        (Array.new cap, (0 : Nat)) xs = .ok (outs, s) ∧
      (∀ n, ∃ out s', (decorated (lru V clock) sz srt srtS).pop s n = .ok (out, s') ∧
        ∀ x ∈ out, ∀ y ∈ (decorated (lru V clock) sz srt srtS).contents s',
          Before (xs.flatMap usedBy) x.1 y.1) ∧
      (∀ l : List (K × V), (((decorated (lru V clock) sz srt srtS).contents s ++ l).map Prod.fst).Nodup →
        ∃ out s', (decorated (lru V clock) sz srt srtS).push s l = .ok (out, s') ∧
        ∀ x ∈ out, ∀ y ∈ (decorated (lru V clock) sz srt srtS).contents s',
          Before (xs.flatMap usedBy ++ l.map Prod.fst) x.1 y.1) := by
  obtain ⟨outs, s, h1, h2, h3, h4⟩ := array_history (lru_stamps clock) (lru_accesses clock) cap (0 : Nat)
    xs (lru_sameSize hsz hk) hf
  rw [show usedIn true (fun _ => true) (fun _ => true) = (usedBy : Session K V → List K) from
    funext usedBy_eq] at h4
  refine ⟨outs, s, h1, ?_, ?_⟩
  · intro n
    exact pop_evicts (D := lru V clock) (fun a b => lru_le a b) hm hS h2 h3 h4 n
  · intro l hn
    refine push_evicts (D := lru V clock) (lru_stamps clock) (fun a b => lru_le a b) hm hS hS' h2 h4 l ?_
    replace hn : ((s.1.values.map (strip _) ++ l).map Prod.fst).Nodup := hn
    rw [List.map_append, List.map_map] at hn
    exact hn

/-- **C83, `Fifo`.** Looking elements up and using their cells, any number of times, changes nothing to
what is evicted. -/
theorem C83_fifo (sz : K × FifoCell V → Nat) (srt srtS : Sorter (K × FifoCell V)) (hS : ByValue srt)
    (hS' : ByValue srtS) (cap : Nat) (xs : List (Session K V))
    (hk : ∀ k us, .getMut k us ∈ xs → ∀ k' v t, sz (k', ⟨final us v, t⟩) = sz (k', ⟨v, t⟩))
    (hf : Block.FreshSessions (decoratedCells (D := fifo V) (fifoAccess V) sz srt srtS)
      (decorated (fifo V) sz srt srtS).contents (Array.new cap, (0 : Nat)) xs) :
    ∃ outs s, Block.sessions (decoratedCells (D := fifo V) (fifoAccess V) sz srt srtS)
        (Array.new cap, (0 : Nat)) xs = .ok (outs, s) ∧
      (∀ n, ∃ out s', (decorated (fifo V) sz srt srtS).pop s n = .ok (out, s') ∧
        ∀ x ∈ out, ∀ y ∈ (decorated (fifo V) sz srt srtS).contents s',
          Before (xs.flatMap pushedBy) x.1 y.1) ∧
      (∀ l : List (K × V), (((decorated (fifo V) sz srt srtS).contents s ++ l).map Prod.fst).Nodup →
        ∃ out s', (decorated (fifo V) sz srt srtS).push s l = .ok (out, s') ∧
        ∀ x ∈ out, ∀ y ∈ (decorated (fifo V) sz srt srtS).contents s',
          Before (xs.flatMap pushedBy ++ l.map Prod.fst) x.1 y.1) := by
  obtain ⟨outs, s, h1, h2, h3, h4⟩ := array_history fifo_stamps fifo_accesses cap (0 : Nat)
    xs (fifo_sameSize hk) hf
  rw [show usedIn false (fun _ => true) (fun _ => true) = (pushedBy : Session K V → List K) from
    funext (pushedBy_eq _ _)] at h4
  refine ⟨outs, s, h1, ?_, ?_⟩
  · intro n
    exact pop_evicts (D := fifo V) (fun a b => fifo_le a b) strictMono_id hS h2 h3 h4 n
  · intro l hn
    refine push_evicts (D := fifo V) fifo_stamps (fun a b => fifo_le a b) strictMono_id hS hS' h2 h4 l ?_
    replace hn : ((s.1.values.map (strip _) ++ l).map Prod.fst).Nodup := hn
    rw [List.map_append, List.map_map] at hn
    exact hn

/-! ## On a `Compressed` -/

/-- A `Compressed` decorated by `D`, and its cells. -/
abbrev packed (D : Decoration V) (z : Lz4) (cd : VecCodec (K × D.Item)) (srt srtU : Sorter (K × D.Item)) :
    Block K V := decorator D (compressed z cd srt srtU)

abbrev packedCells {D : Decoration V} (A : Access D) (z : Lz4) (cd : VecCodec (K × D.Item))
    (srt srtU : Sorter (K × D.Item)) : CellOps (packed D z cd srt srtU) :=
  decoratorCells A (compressedCells z cd srt srtU)

section
open Compressed
variable {D : Decoration V} {A : Access D} {z : Lz4} {cd : VecCodec (K × D.Item)}
  {srt srtU : Sorter (K × D.Item)}

/-- The element does not get longer when its cell is used so, in a history which reads the clock at most
`N` times. -/
def NotLonger (A : Access D) (cd : VecCodec (K × D.Item)) (read : D.Factory → Nat) (touch : Bool) (N : Nat)
    (ts : List (Touch V)) : Prop :=
  ∀ fac, (read fac + if touch then ts.length else 0) ≤ N →
    CompressedProps.NoLonger cd (effect (A.touches fac ts))

theorem get_cellLaw {W : Type} {cd : VecCodec (K × W)} {srt srtU : Sorter (K × W)} (hlaw : cd.Law)
    (Pre : List (Touch W) → Prop) :
    CellLaw (compressed z cd srt srtU) (compressedCells z cd srt srtU).get
      (fun c => Compressed.Inv z cd c ∧ ((Compressed.elems z cd c).map Prod.fst).Nodup)
      (Compressed.elems z cd) Pre (fun _ => false) := by
  intro s k ts hs _
  exact (CompressedProps.mapLawful (z := z) (srt := srt) (srtU := srtU) hlaw).get s k id hs rfl

theorem getMut_cellLaw {W : Type} {cd : VecCodec (K × W)} {srt srtU : Sorter (K × W)} (hlaw : cd.Law) :
    CellLaw (compressed z cd srt srtU) (compressedCells z cd srt srtU).getMut
      (fun c => Compressed.Inv z cd c ∧ ((Compressed.elems z cd c).map Prod.fst).Nodup)
      (Compressed.elems z cd) (fun ts => CompressedProps.NoLonger cd (effect ts)) (fun bs => bs.any id) := by
  intro s k ts hs hp
  have hm := CompressedProps.mapLawful (z := z) (srt := srt) (srtU := srtU) hlaw
  have e : (ts.map Touch.mutably).any id = ts.any Touch.mutably := by simp [List.any_map]
  simp only [e]
  by_cases h : ts.any Touch.mutably = true
  · simp only [compressedCells, h, if_true]
    exact hm.getMut s k (effect ts) hs hp
  · simp only [compressedCells, h]
    exact hm.get s k id hs rfl

theorem packed_contents (hlaw : cd.Law) {c : Compressed} {l : List (K × D.Item)} (h : Holds z cd c l)
    (fac : D.Factory) : (packed D z cd srt srtU).contents (c, fac) = l.map (strip D) := by
  obtain ⟨c', g1, -⟩ := flush_spec hlaw h
  have e : (packed D z cd srt srtU).flush (c, fac) = .ok (l.map (strip D), (c', fac)) := by
    show (Compressed.flush z cd c >>= fun x => pure (x.1.map (strip D), (x.2, fac))) = _
    rw [g1]; rfl
  unfold Block.contents
  rw [e]

/-- The state of a decorated `Compressed` after a history. -/
theorem packed_history {stamp : D.Item → T} (hlaw : cd.Law)
    {clock : Nat → T} {read : D.Factory → Nat} {touch : Bool} (hD : Stamps D stamp clock read)
    (hA : Accesses D A stamp clock read touch) (cap : Nat) (fac : D.Factory) (xs : List (Session K V))
    (hk : ∀ x ∈ xs, Session.Within
      (NotLonger A cd read touch (read fac + (xs.map (readings touch)).sum)) x)
    (hf : Block.FreshSessions (packedCells A z cd srt srtU) (packed D z cd srt srtU).contents
      (Compressed.new cap, fac) xs) :
    ∃ outs s, Block.sessions (packedCells A z cd srt srtU) (Compressed.new cap, fac) xs = .ok (outs, s) ∧
      ∃ l, Holds z cd s.1 l ∧ (l.map Prod.fst).Nodup ∧
      read s.2 ≤ read fac + (xs.map (readings touch)).sum ∧
      Ranked stamp clock (read s.2) l
        (xs.flatMap (usedIn touch (fun _ => false) (fun bs => bs.any id))) := by
  have hm := CompressedProps.mapLawful (z := z) (srt := srt) (srtU := srtU) hlaw
  have h0 : Compressed.elems z cd (Compressed.new cap) = [] :=
    (CompressedProps.new_holds cap).elems hlaw
  obtain ⟨outs, s, h1, h2, hb, h4⟩ := ranked_sessions (A := A) (G := compressedCells z cd srt srtU)
    (h := []) hD hA (Lawful.keeps hm.toLawful hm.pushFresh) (fun s hs => hs.2)
    (get_cellLaw hlaw (fun ts => CompressedProps.NoLonger cd (effect ts))) (getMut_cellLaw hlaw) xs
    (fun x hx => by
      have := hk x hx
      cases x with
      | op o => trivial
      | get k n => exact this
      | getMut k us => exact this)
    (elems := (packed D z cd srt srtU).contents)
    (fun s hs => by
      exact .of_eq (packed_contents hlaw (hs.1.holds hlaw) s.2))
    (Compressed.new cap, fac)
    ⟨⟨[], CompressedProps.new_holds cap⟩, by simp only; rw [h0]; simp⟩
    (by simp only; rw [h0]; exact Ranked.nil) (le_refl _) hf
  exact ⟨outs, s, h1, _, h2.1.holds hlaw, h2.2, hb, by simpa using h4⟩

theorem packed_nodup (hlaw : cd.Law) {s : (packed D z cd srt srtU).State} {l0 : List (K × D.Item)}
    (h : Holds z cd s.1 l0) {l : List (K × V)}
    (hn : (((packed D z cd srt srtU).contents s ++ l).map Prod.fst).Nodup) :
    (l0.map Prod.fst ++ l.map Prod.fst).Nodup := by
  have e : (packed D z cd srt srtU).contents s = l0.map (strip D) := packed_contents hlaw h s.2
  rw [e, List.map_append, List.map_map] at hn
  exact hn

variable [LinearOrder T] [LE D.Item] {stamp : D.Item → T} {clock : Nat → T} {read : D.Factory → Nat}

theorem packed_pop_evicts (hlaw : cd.Law) (hle : ∀ a b : D.Item, a ≤ b ↔ stamp b ≤ stamp a)
    (hm : StrictMono clock) (hS : ByValue srt) {s : (packed D z cd srt srtU).State} {n0 : Nat} {h : List K}
    {l : List (K × D.Item)} (hh : Holds z cd s.1 l) (hn : (l.map Prod.fst).Nodup)
    (hr : Ranked stamp clock n0 l h) (n : Nat) :
    ∃ out s', (packed D z cd srt srtU).pop s n = .ok (out, s') ∧
      ∀ x ∈ out, ∀ y ∈ (packed D z cd srt srtU).contents s', Before h x.1 y.1 := by
  obtain ⟨out, c', l', h1, h2, -, h4, -, -, h5⟩ := pop_spec hlaw srt hh n
  refine ⟨out.map (strip D), (c', s.2), by simp [packed, decorator, compressed, h1], ?_⟩
  rw [packed_contents hlaw h2]
  intro x hx y hy
  obtain ⟨x', hx', rfl⟩ := List.mem_map.1 hx
  obtain ⟨y', hy', rfl⟩ := List.mem_map.1 hy
  have mx := h4.mem_iff.1 (List.mem_append_right _ hx')
  have my := h4.mem_iff.1 (List.mem_append_left _ hy')
  have hl : l ≠ [] := by rintro rfl; simp at mx
  have ho := hS l
  rw [h5 hl, List.pairwise_append] at ho
  exact hr.before hm mx my (ne_of_split h4 hn hx' hy') ((hle _ _).1 (ho.2.2 y' hy' x' hx'))

theorem packed_push_evicts (hlaw : cd.Law) (hD : Stamps D stamp clock read)
    (hle : ∀ a b : D.Item, a ≤ b ↔ stamp b ≤ stamp a) (hm : StrictMono clock) (hS : ByValue srtU)
    {s : (packed D z cd srt srtU).State} {h : List K} {l0 : List (K × D.Item)} (hh : Holds z cd s.1 l0)
    (hr : Ranked stamp clock (read s.2) l0 h) (l : List (K × V))
    (hn : (l0.map Prod.fst ++ l.map Prod.fst).Nodup)
    (henc : ∀ e ∈ (wrapAll D s.2 l).1, cd.enc e ≠ none) :
    ∃ out s', (packed D z cd srt srtU).push s l = .ok (out, s') ∧
      ∀ x ∈ out, ∀ y ∈ (packed D z cd srt srtU).contents s', Before (h ++ l.map Prod.fst) x.1 y.1 := by
  obtain ⟨out, c', l', h1, h2, -, h4, h5⟩ := push_split hlaw srtU hh (wrapAll D s.2 l).1
  have hr' := hD.wrapAll l s.2 l0 h hn hr
  have hn' : ((l0 ++ (wrapAll D s.2 l).1).map Prod.fst).Nodup := by
    rw [List.map_append, wrapAll_keys]; exact hn
  refine ⟨out.map (strip D), (c', (wrapAll D s.2 l).2),
    by simp [packed, decorator, compressed, h1], ?_⟩
  rw [packed_contents hlaw h2]
  intro x hx y hy
  obtain ⟨x', hx', rfl⟩ := List.mem_map.1 hx
  obtain ⟨y', hy', rfl⟩ := List.mem_map.1 hy
  have mx := h4.mem_iff.1 (List.mem_append_right _ hx')
  have my := h4.mem_iff.1 (List.mem_append_left _ hy')
  have hne := ne_of_split h4 hn' hx' hy'
  have older : x' ∈ l0 → y' ∈ (wrapAll D s.2 l).1 → Before (h ++ l.map Prod.fst) x'.1 y'.1 := by
    intro g1 g2
    refine .append (hr.mem g1) ?_ ?_
    · intro hmem
      exact (List.nodup_append.1 hn).2.2 x'.1 (List.mem_map_of_mem g1) x'.1 hmem rfl
    · rw [← wrapAll_keys (D := D) l s.2]
      exact List.mem_map_of_mem g2
  have sorted : y'.2 ≤ x'.2 → Before (h ++ l.map Prod.fst) x'.1 y'.1 := fun g =>
    hr'.before hm mx my hne ((hle _ _).1 g)
  rcases h5 with ⟨⟨e, e1, e2⟩, -⟩ | ⟨p, q, q1, rfl, rfl⟩ | ⟨p, q, q1, rfl, rfl⟩ | ⟨rfl, rfl⟩
  · exact absurd e2 (henc e e1)
  · have hy2 : y' ∈ (wrapAll D s.2 l).1 := (srtU.perm _).mem_iff.1 (by rw [q1]; simp [hy'])
    rcases List.mem_append.1 hx' with hx' | hx'
    · exact older hx' hy2
    · have ho := hS (wrapAll D s.2 l).1
      rw [q1, List.pairwise_append] at ho
      exact sorted (ho.2.2 y' hy' x' hx')
  · have hx2 : x' ∈ l0 := (srtU.perm _).mem_iff.1 (by rw [q1]; simp [hx'])
    rcases List.mem_append.1 hy' with hy' | hy'
    · have ho := hS l0
      rw [q1, List.pairwise_append] at ho
      exact sorted (ho.2.2 y' hy' x' hx')
    · exact older hx2 hy'
  · simp at hx'

end

/-! ## C84: `Fifo` on a `Compressed` -/

/-- The number of elements pushed in a session. -/
def pushes (x : Session K V) : Nat := x.given.length

omit [LinearOrder K] in
theorem pushes_eq : (readings false : Session K V → Nat) = pushes := by
  funext x; cases x <;> rfl

/-- **C84.** On a `Compressed` decorated with `Fifo`, after any history of calls which pushes only absent
keys, and in which cells are used any number of times without making an element longer: everything
evicted by `pop`, or by a `push` of elements that can be serialised, was pushed before everything kept. -/
theorem C84_fifo_compressed (z : Lz4) (cd : VecCodec (K × FifoCell V)) (hlaw : cd.Law)
    (srt srtU : Sorter (K × FifoCell V)) (hS : ByValue srt) (hS' : ByValue srtU) (cap : Nat)
    (xs : List (Session K V))
    (hk : ∀ k us, .getMut k us ∈ xs → ∀ k' v t, cd.enc (k', ⟨v, t⟩) ≠ none →
      cd.enc (k', ⟨final us v, t⟩) ≠ none ∧ cd.size (k', ⟨final us v, t⟩) ≤ cd.size (k', ⟨v, t⟩))
    (hf : Block.FreshSessions (packedCells (D := fifo V) (fifoAccess V) z cd srt srtU)
      (packed (fifo V) z cd srt srtU).contents (Compressed.new cap, (0 : Nat)) xs) :
    ∃ outs s, Block.sessions (packedCells (D := fifo V) (fifoAccess V) z cd srt srtU)
        (Compressed.new cap, (0 : Nat)) xs = .ok (outs, s) ∧
      (∀ n, ∃ out s', (packed (fifo V) z cd srt srtU).pop s n = .ok (out, s') ∧
        ∀ x ∈ out, ∀ y ∈ (packed (fifo V) z cd srt srtU).contents s',
          Before (xs.flatMap pushedBy) x.1 y.1) ∧
      (∀ l : List (K × V), (((packed (fifo V) z cd srt srtU).contents s ++ l).map Prod.fst).Nodup →
        (∀ e ∈ l, ∀ t < (xs.map pushes).sum + l.length, cd.enc (e.1, ⟨e.2, t⟩) ≠ none) →
        ∃ out s', (packed (fifo V) z cd srt srtU).push s l = .ok (out, s') ∧
        ∀ x ∈ out, ∀ y ∈ (packed (fifo V) z cd srt srtU).contents s',
          Before (xs.flatMap pushedBy ++ l.map Prod.fst) x.1 y.1) := by
  have hcell : ∀ (N : Nat) (ts : List (Touch V)), (∀ k' v t, cd.enc (k', ⟨v, t⟩) ≠ none →
      cd.enc (k', ⟨effect ts v, t⟩) ≠ none ∧ cd.size (k', ⟨effect ts v, t⟩) ≤ cd.size (k', ⟨v, t⟩)) →
      NotLonger (D := fifo V) (fifoAccess V) cd (fun n : Nat => n) false N ts := by
    intro N ts hts fac _ k' c hc
    have h3 : effect ((fifoAccess V).touches fac ts) c =
        (⟨effect ts (FifoCell.value c), FifoCell.counter c⟩ : FifoCell V) := fifo_effect ts fac c
    have := hts k' (FifoCell.value c) (FifoCell.counter c) hc
    exact h3.symm ▸ this
  obtain ⟨outs, s, h1, l0, h2, h3, hb, h4⟩ := packed_history (A := fifoAccess V) (z := z) (srt := srt)
    (srtU := srtU) hlaw fifo_stamps fifo_accesses cap (0 : Nat) xs
    (fun x hx => by
      cases x with
      | op o => trivial
      | get k n => exact hcell _ _ (fun k' v t h => by rw [effect_reads]; exact ⟨h, le_refl _⟩)
      | getMut k us => exact hcell _ _ (fun k' v t h => by rw [effect_touch]; exact hk k us hx k' v t h)) hf
  rw [pushes_eq, Nat.zero_add] at hb
  rw [show usedIn false (fun _ => false) (fun bs => bs.any id) = (pushedBy : Session K V → List K) from
    funext (pushedBy_eq _ _)] at h4
  refine ⟨outs, s, h1, ?_, ?_⟩
  · intro n
    exact packed_pop_evicts (D := fifo V) hlaw (fun a b => fifo_le a b) strictMono_id hS h2 h3 h4 n
  · intro l hn henc
    refine packed_push_evicts (D := fifo V) hlaw fifo_stamps (fun a b => fifo_le a b) strictMono_id hS'
      h2 h4 l (packed_nodup hlaw h2 hn) ?_
    intro e he
    obtain ⟨e', he', t, ht, rfl⟩ := fifo_wrapAll l s.2 e he
    exact henc e' he' t (lt_of_lt_of_le ht (Nat.add_le_add_right hb _))

/-! ## C85: `Lru` on a `Compressed` -/

/-- The number of times a session reads the clock: once for each element pushed, once for each use of a
cell. -/
def ticksOf : Session K V → Nat
  | .op o => o.given.length
  | .get _ n => n
  | .getMut _ us => us.length

omit [LinearOrder K] in
theorem ticksOf_eq : (readings true : Session K V → Nat) = ticksOf := by
  funext x; cases x <;> rfl

/-- What the history must not do: make an element longer.  Time stamps have the same length (there are
finitely many of them in a history), and what is done to a value does not make it longer. -/
def Fits (clock : Nat → T) (cd : VecCodec (K × LruCell V T)) (xs : List (Session K V)) : Prop :=
  (∀ k v t n, n < (xs.map ticksOf).sum → cd.enc (k, ⟨v, t⟩) ≠ none →
    cd.enc (k, ⟨v, clock n⟩) ≠ none ∧ cd.size (k, ⟨v, clock n⟩) ≤ cd.size (k, ⟨v, t⟩)) ∧
  ∀ k us, .getMut k us ∈ xs → ∀ k' v t, cd.enc (k', ⟨v, t⟩) ≠ none →
    cd.enc (k', ⟨final us v, t⟩) ≠ none ∧ cd.size (k', ⟨final us v, t⟩) ≤ cd.size (k', ⟨v, t⟩)

/-- Full statement of C85: on a `Compressed` decorated with `Lru`, what is popped was last used before
what is kept. -/
def C85_full : Prop :=
  ∀ (K V T : Type) (_ : LinearOrder K) (_ : LinearOrder T) (clock : Nat → T), StrictMono clock →
  ∀ (z : Lz4) (cd : VecCodec (K × LruCell V T)), cd.Law →
  ∀ (srt srtU : Sorter (K × LruCell V T)), ByValue srt → ByValue srtU →
  ∀ (cap : Nat) (xs : List (Session K V)), Fits clock cd xs →
    Block.FreshSessions (packedCells (D := lru V clock) (lruAccess V clock) z cd srt srtU)
      (packed (lru V clock) z cd srt srtU).contents (Compressed.new cap, (0 : Nat)) xs →
    ∃ outs s, Block.sessions (packedCells (D := lru V clock) (lruAccess V clock) z cd srt srtU)
        (Compressed.new cap, (0 : Nat)) xs = .ok (outs, s) ∧
      ∀ n, ∃ out s', (packed (lru V clock) z cd srt srtU).pop s n = .ok (out, s') ∧
        ∀ x ∈ out, ∀ y ∈ (packed (lru V clock) z cd srt srtU).contents s',
          Before (xs.flatMap usedBy) x.1 y.1

/-- Is the value written? -/
def isWrite : Use V → Bool
  | .read => false
  | .write _ => true

/-- The keys pushed by a session, or written through the cell of `get_mut`. -/
def writtenBy : Session K V → List K
  | .op o => o.given.map Prod.fst
  | .get _ _ => []
  | .getMut k us => if us.any isWrite then [k] else []

omit [LinearOrder K] in
theorem writtenBy_eq (x : Session K V) :
    usedIn true (fun _ => false) (fun bs => bs.any id) x = writtenBy x := by
  cases x with
  | op o => rfl
  | get k n => simp [usedIn, writtenBy]
  | getMut k us =>
    have : (us.map fun u => u.touch.mutably) = us.map isWrite :=
      List.map_congr_left fun u _ => by cases u <;> rfl
    simp only [usedIn, writtenBy, this]
    cases us <;> simp

/-- **C85, what holds**: only pushing and writing through the cell of `get_mut` count as uses: `get`, and
a cell of `get_mut` which is only read, do not protect an element from eviction. -/
theorem C85_partial [LinearOrder T] (clock : Nat → T) (hm : StrictMono clock) (z : Lz4)
    (cd : VecCodec (K × LruCell V T)) (hlaw : cd.Law)
    (srt srtU : Sorter (K × LruCell V T)) (hS : ByValue srt) (hS' : ByValue srtU) (cap : Nat)
    (xs : List (Session K V)) (hk : Fits clock cd xs)
    (hf : Block.FreshSessions (packedCells (D := lru V clock) (lruAccess V clock) z cd srt srtU)
      (packed (lru V clock) z cd srt srtU).contents (Compressed.new cap, (0 : Nat)) xs) :
    ∃ outs s, Block.sessions (packedCells (D := lru V clock) (lruAccess V clock) z cd srt srtU)
        (Compressed.new cap, (0 : Nat)) xs = .ok (outs, s) ∧
      (∀ n, ∃ out s', (packed (lru V clock) z cd srt srtU).pop s n = .ok (out, s') ∧
        ∀ x ∈ out, ∀ y ∈ (packed (lru V clock) z cd srt srtU).contents s',
          Before (xs.flatMap writtenBy) x.1 y.1) ∧
      (∀ l : List (K × V), (((packed (lru V clock) z cd srt srtU).contents s ++ l).map Prod.fst).Nodup →
        (∀ e ∈ l, ∀ n < (xs.map ticksOf).sum + l.length, cd.enc (e.1, ⟨e.2, clock n⟩) ≠ none) →
        ∃ out s', (packed (lru V clock) z cd srt srtU).push s l = .ok (out, s') ∧
        ∀ x ∈ out, ∀ y ∈ (packed (lru V clock) z cd srt srtU).contents s',
          Before (xs.flatMap writtenBy ++ l.map Prod.fst) x.1 y.1) := by
  have hcell : ∀ (ts : List (Touch V)), (∀ k' v t, cd.enc (k', ⟨v, t⟩) ≠ none →
      cd.enc (k', ⟨effect ts v, t⟩) ≠ none ∧ cd.size (k', ⟨effect ts v, t⟩) ≤ cd.size (k', ⟨v, t⟩)) →
      NotLonger (D := lru V clock) (lruAccess V clock) cd (fun n : Nat => n) true
        (0 + (xs.map (readings true)).sum) ts := by
    intro ts hts (fac : Nat) hN k' c hc
    by_cases ht : ts = []
    · subst ht; exact ⟨hc, le_refl _⟩
    have h1 : LruCell.value (effect ((lruAccess V clock).touches fac ts) c) = effect ts (LruCell.value c) :=
      effect_unwrap (A := lruAccess V clock) (fun _ _ _ => rfl) ts fac c
    have h2 : LruCell.timestamp (effect ((lruAccess V clock).touches fac ts) c) =
        clock (fac + ts.length - 1) := (touches_stamp (lru_accesses clock) ts fac c).2 ht
    have h3 : effect ((lruAccess V clock).touches fac ts) c =
        (⟨effect ts (LruCell.value c), clock (fac + ts.length - 1)⟩ : LruCell V T) := by
      rw [← h1, ← h2]; rfl
    have hpos : 0 < ts.length := List.length_pos_of_ne_nil ht
    have hN' : fac + ts.length ≤ 0 + (xs.map ticksOf).sum := by rw [← ticksOf_eq]; exact hN
    have g1 := hts k' (LruCell.value c) (LruCell.timestamp c) hc
    have g2 := hk.1 k' (effect ts (LruCell.value c)) (LruCell.timestamp c) (fac + ts.length - 1)
      (by omega) g1.1
    have : cd.enc (k', ⟨effect ts (LruCell.value c), clock (fac + ts.length - 1)⟩) ≠ none ∧
        cd.size (k', ⟨effect ts (LruCell.value c), clock (fac + ts.length - 1)⟩) ≤ cd.size (k', c) :=
      ⟨g2.1, g2.2.trans g1.2⟩
    exact h3.symm ▸ this
  obtain ⟨outs, s, h1, l0, h2, h3, hb, h4⟩ := packed_history (A := lruAccess V clock) (z := z) (srt := srt)
    (srtU := srtU) hlaw (lru_stamps clock) (lru_accesses clock) cap (0 : Nat) xs
    (fun x hx => by
      cases x with
      | op o => trivial
      | get k n => exact hcell _ (fun k' v t h => by rw [effect_reads]; exact ⟨h, le_refl _⟩)
      | getMut k us => exact hcell _ (fun k' v t h => by rw [effect_touch]; exact hk.2 k us hx k' v t h)) hf
  rw [ticksOf_eq, Nat.zero_add] at hb
  rw [show usedIn true (fun _ => false) (fun bs => bs.any id) = (writtenBy : Session K V → List K) from
    funext writtenBy_eq] at h4
  refine ⟨outs, s, h1, ?_, ?_⟩
  · intro n
    exact packed_pop_evicts (D := lru V clock) hlaw (fun a b => lru_le a b) hm hS h2 h3 h4 n
  · intro l hn henc
    refine packed_push_evicts (D := lru V clock) hlaw (lru_stamps clock) (fun a b => lru_le a b) hm hS'
      h2 h4 l (packed_nodup hlaw h2 hn) ?_
    intro e he
    obtain ⟨e', he', n, hn, rfl⟩ := lru_wrapAll clock l s.2 e he
    exact henc e' he' n (lt_of_lt_of_le hn (Nat.add_le_add_right hb _))

/-! ## Concrete histories -/

/-- Check a concrete history. -/
def freshSessionsB {B : Block K V} (G : CellOps B) : B.State → List (Session K V) → Bool
  | _, [] => true
  | s, x :: xs => decide (((B.contents s ++ x.given).map Prod.fst).Nodup) &&
    match Block.session G s x with
    | .ok (_, s') => freshSessionsB G s' xs
    | .panic => true

theorem fresh_of_freshSessionsB {B : Block K V} (G : CellOps B) : ∀ (xs : List (Session K V)) (s : B.State),
    freshSessionsB G s xs = true → Block.FreshSessions G B.contents s xs
  | [], _, _ => trivial
  | x :: xs, s, h => by
    simp only [freshSessionsB, Bool.and_eq_true, decide_eq_true_eq] at h
    refine ⟨h.1, ?_⟩
    intro out s' hc
    have h2 := h.2
    rw [hc] at h2
    exact fresh_of_freshSessionsB G xs s' h2

/-- Key 1 is read twice through `get`, key 2 is written and read through `get_mut`, the cell of key 3 is
not used. -/
def demo : List (Session Nat Nat) :=
  [.op (.push [(1, 10), (2, 20), (3, 30)]), .get 1 2, .getMut 2 [.read, .write (· + 1), .read], .get 3 0]

theorem demo_lru_fresh : Block.FreshSessions
    (decoratedCells (D := lru Nat (id : Nat → Nat)) (lruAccess Nat id) (fun _ : Nat × LruCell Nat Nat => 1)
      lruSorter lruSorter) (decorated (lru Nat (id : Nat → Nat)) _ lruSorter lruSorter).contents
    (Array.new 4, (0 : Nat)) demo := fresh_of_freshSessionsB _ _ _ (by decide +kernel)

theorem demo_fifo_fresh : Block.FreshSessions
    (decoratedCells (D := fifo Nat) (fifoAccess Nat) (fun _ : Nat × FifoCell Nat => 1) fifoSorter fifoSorter)
    (decorated (fifo Nat) _ fifoSorter fifoSorter).contents
    (Array.new 4, (0 : Nat)) demo := fresh_of_freshSessionsB _ _ _ (by decide +kernel)

example := C83_lru (id : Nat → Nat) strictMono_id (fun _ : Nat × LruCell Nat Nat => 1)
  (fun _ _ _ _ => rfl) lruSorter lruSorter lruSorter_byValue lruSorter_byValue 4 demo
  (fun _ _ _ _ _ _ => rfl) demo_lru_fresh

example := C83_fifo (fun _ : Nat × FifoCell Nat => 1) fifoSorter fifoSorter fifoSorter_byValue
  fifoSorter_byValue 4 demo (fun _ _ _ _ _ _ => rfl) demo_fifo_fresh

/-- `Lru` evicts key 3, whose cell was not used. -/
example : (Block.sessions (decoratedCells (D := lru Nat (id : Nat → Nat)) (lruAccess Nat id)
    (fun _ : Nat × LruCell Nat Nat => 1) lruSorter lruSorter) (Array.new 4, (0 : Nat))
    (demo ++ [.op (.pop 1)])).bind (fun x => .ok x.1) = .ok [(3, 30)] := by decide +kernel

/-- `Fifo` evicts key 1. -/
example : (Block.sessions (decoratedCells (D := fifo Nat) (fifoAccess Nat)
    (fun _ : Nat × FifoCell Nat => 1) fifoSorter fifoSorter) (Array.new 4, (0 : Nat))
    (demo ++ [.op (.pop 1)])).bind (fun x => .ok x.1) = .ok [(1, 10)] := by decide +kernel

/-- Numbers below 256 on one byte: the key, the value and the stamp. -/
def triple {I : Type} (val st : I → Nat) (mk : Nat → Nat → I) : VecCodec (Nat × I) where
  enc e := if e.1 < 256 ∧ val e.2 < 256 ∧ st e.2 < 256 then
    some [UInt8.ofNat e.1, UInt8.ofNat (val e.2), UInt8.ofNat (st e.2)] else none
  dec b := parse3 mk (b.drop 8)
where
  parse3 {I : Type} (mk : Nat → Nat → I) : List UInt8 → Option (List (Nat × I))
    | [] => some []
    | a :: b :: c :: l => (parse3 mk l).map fun r => (a.toNat, mk b.toNat c.toNat) :: r
    | _ => none

theorem triple_law {I : Type} {val st : I → Nat} {mk : Nat → Nat → I} (h : ∀ i, mk (val i) (st i) = i) :
    (triple val st mk).Law := by
  have body : ∀ (l : List (Nat × I)) b, (triple val st mk).body l = some b →
      triple.parse3 mk b = some l := by
    intro l
    induction l with
    | nil => intro b hb; cases hb; rfl
    | cons e l ih =>
      intro b hb
      by_cases he : e.1 < 256 ∧ val e.2 < 256 ∧ st e.2 < 256
      · have hen : (triple val st mk).enc e =
          some [UInt8.ofNat e.1, UInt8.ofNat (val e.2), UInt8.ofNat (st e.2)] := if_pos he
        cases hb' : (triple val st mk).body l with
        | none => simp [VecCodec.body, hb'] at hb
        | some bs =>
          simp only [VecCodec.body, hb', hen, Option.bind_eq_bind, Option.bind_some, Option.pure_def,
            Option.some.injEq] at hb
          subst hb
          have h1 : (UInt8.ofNat e.1).toNat = e.1 := by simp; omega
          have h2 : (UInt8.ofNat (val e.2)).toNat = val e.2 := by simp; omega
          have h3 : (UInt8.ofNat (st e.2)).toNat = st e.2 := by simp; omega
          simp [triple.parse3, ih bs hb', h1, h2, h3, h]
      · have hen : (triple val st mk).enc e = none := if_neg he
        simp [VecCodec.body, hen] at hb
  intro l b hb
  cases hb' : (triple val st mk).body l with
  | none => simp [VecCodec.encode, hb'] at hb
  | some bs =>
    simp only [VecCodec.encode, hb', Option.bind_eq_bind, Option.bind_some, Option.pure_def,
      Option.some.injEq] at hb
    subst hb
    have hd : (VecCodec.header l.length ++ bs).drop 8 = bs := by
      conv_lhs => rw [← VecCodec.header_length l.length]
      simp
    simp only [triple, hd]
    exact body l bs hb'

def fifoVec : VecCodec (Nat × FifoCell Nat) := triple FifoCell.value FifoCell.counter FifoCell.mk
def lruVec : VecCodec (Nat × LruCell Nat Nat) := triple LruCell.value LruCell.timestamp LruCell.mk

theorem fifoVec_law : fifoVec.Law := triple_law fun _ => rfl
theorem lruVec_law : lruVec.Law := triple_law fun _ => rfl

open CompressedProps (noComp)

/-- Key 1 is read twice, key 2 is written through `get_mut`, key 3 is only read through `get_mut`. -/
def demo2 : List (Session Nat Nat) :=
  [.op (.push [(1, 10), (2, 20), (3, 30)]), .get 1 2, .getMut 2 [.read, .write (fun _ => 5)],
   .getMut 3 [.read]]

theorem demo2_fifo_fresh : Block.FreshSessions (packedCells (D := fifo Nat) (fifoAccess Nat) noComp fifoVec
    fifoSorter fifoSorter) (packed (fifo Nat) noComp fifoVec fifoSorter fifoSorter).contents
    (Compressed.new 20, (0 : Nat)) demo2 := fresh_of_freshSessionsB _ _ _ (by decide +kernel)

theorem demo2_lru_fresh : Block.FreshSessions (packedCells (D := lru Nat (id : Nat → Nat)) (lruAccess Nat id)
    noComp lruVec lruSorter lruSorter)
    (packed (lru Nat (id : Nat → Nat)) noComp lruVec lruSorter lruSorter).contents
    (Compressed.new 20, (0 : Nat)) demo2 := fresh_of_freshSessionsB _ _ _ (by decide +kernel)

theorem triple_size {I : Type} {val st : I → Nat} {mk : Nat → Nat → I} {k : Nat} {i : I}
    (h : (triple val st mk).enc (k, i) ≠ none) : (k < 256 ∧ val i < 256 ∧ st i < 256) ∧
      (triple val st mk).size (k, i) = 3 := by
  by_cases he : k < 256 ∧ val i < 256 ∧ st i < 256
  · refine ⟨he, ?_⟩
    have : (triple val st mk).enc (k, i) =
        some [UInt8.ofNat k, UInt8.ofNat (val i), UInt8.ofNat (st i)] := if_pos he
    simp [VecCodec.size, this]
  · exact absurd (if_neg he) h

theorem triple_enc {I : Type} {val st : I → Nat} {mk : Nat → Nat → I} {k : Nat} {i : I}
    (he : k < 256 ∧ val i < 256 ∧ st i < 256) : (triple val st mk).enc (k, i) ≠ none := by
  have : (triple val st mk).enc (k, i) =
      some [UInt8.ofNat k, UInt8.ofNat (val i), UInt8.ofNat (st i)] := if_pos he
  simp [this]

theorem demo2_fits : Fits id lruVec demo2 := by
  constructor
  · intro k v t n hn h
    have hn' : n < 8 := hn
    obtain ⟨h1, h2⟩ := triple_size h
    have h3 : lruVec.enc (k, ⟨v, id n⟩) ≠ none := triple_enc ⟨h1.1, h1.2.1, by simp; omega⟩
    refine ⟨h3, ?_⟩
    rw [show lruVec.size (k, ⟨v, id n⟩) = 3 from (triple_size h3).2]
    exact h2.ge
  · intro k us hus k' v t h
    obtain ⟨h1, h2⟩ := triple_size h
    have hv : final us v < 256 := by
      simp only [demo2, List.mem_cons, List.not_mem_nil, or_false, reduceCtorEq, false_or,
        Session.getMut.injEq] at hus
      rcases hus with ⟨-, rfl⟩ | ⟨-, rfl⟩
      · simp [final, Use.apply]
      · exact h1.2.1
    have h3 : lruVec.enc (k', ⟨final us v, t⟩) ≠ none := triple_enc ⟨h1.1, hv, h1.2.2⟩
    refine ⟨h3, ?_⟩
    rw [show lruVec.size (k', ⟨final us v, t⟩) = 3 from (triple_size h3).2]
    exact h2.ge

theorem demo2_fifo_fits : ∀ k us, (Session.getMut k us : Session Nat Nat) ∈ demo2 → ∀ k' v t,
    fifoVec.enc (k', ⟨v, t⟩) ≠ none →
    fifoVec.enc (k', ⟨final us v, t⟩) ≠ none ∧
      fifoVec.size (k', ⟨final us v, t⟩) ≤ fifoVec.size (k', ⟨v, t⟩) := by
  intro k us hus k' v t h
  obtain ⟨h1, h2⟩ := triple_size h
  have hv : final us v < 256 := by
    simp only [demo2, List.mem_cons, List.not_mem_nil, or_false, reduceCtorEq, false_or,
      Session.getMut.injEq] at hus
    rcases hus with ⟨-, rfl⟩ | ⟨-, rfl⟩
    · simp [final, Use.apply]
    · exact h1.2.1
  have h3 : fifoVec.enc (k', ⟨final us v, t⟩) ≠ none := triple_enc ⟨h1.1, hv, h1.2.2⟩
  refine ⟨h3, ?_⟩
  rw [show fifoVec.size (k', ⟨final us v, t⟩) = 3 from (triple_size h3).2]
  exact h2.ge

example := C84_fifo_compressed noComp fifoVec fifoVec_law fifoSorter fifoSorter fifoSorter_byValue
  fifoSorter_byValue 20 demo2 demo2_fifo_fits demo2_fifo_fresh

example := C85_partial (id : Nat → Nat) strictMono_id noComp lruVec lruVec_law lruSorter lruSorter
  lruSorter_byValue lruSorter_byValue 20 demo2 demo2_fits demo2_lru_fresh

/-- The elements that can be pushed next. -/
example : ∀ e ∈ [(4, 40), (5, 50)], ∀ t < (demo2.map pushes).sum + 2,
    fifoVec.enc (e.1, ⟨e.2, t⟩) ≠ none := by decide +kernel

/-- `Fifo` pops the oldest; a further push evicts it too. -/
example : (Block.sessions (packedCells (D := fifo Nat) (fifoAccess Nat) noComp fifoVec fifoSorter fifoSorter)
    (Compressed.new 20, (0 : Nat)) (demo2 ++ [.op (.pop 1)])).bind (fun x => .ok x.1) = .ok [(1, 10)] ∧
    (Block.sessions (packedCells (D := fifo Nat) (fifoAccess Nat) noComp fifoVec fifoSorter fifoSorter)
    (Compressed.new 25, (0 : Nat)) (demo2 ++ [.op (.push [(4, 40)])])).bind
      (fun x => .ok x.1) = .ok [(1, 10)] := by decide +kernel

/-- `Lru` pops key 1, which was read, then key 3: only key 2, which was written, is protected. -/
example : (Block.sessions (packedCells (D := lru Nat (id : Nat → Nat)) (lruAccess Nat id) noComp lruVec
    lruSorter lruSorter) (Compressed.new 20, (0 : Nat))
    (demo2 ++ [.op (.pop 1), .op (.pop 1), .op (.pop 1)])).bind (fun x => .ok x.1) =
    .ok [(1, 10), (3, 30), (2, 5)] := by decide +kernel

/-- Two elements pushed, the first one read: it is evicted all the same. -/
def demo3 : List (Session Nat Nat) := [.op (.push [(1, 10), (2, 20)]), .get 1 1]

theorem C85_false : ¬ C85_full := by
  intro h
  have hfits : Fits id lruVec demo3 := by
    constructor
    · intro k v t n hn h
      have hn' : n < 3 := hn
      exact demo2_fits.1 k v t n (show n < 8 by omega) h
    · intro k us hus
      simp [demo3] at hus
  obtain ⟨outs, s, h1, h2⟩ := h Nat Nat Nat inferInstance inferInstance id strictMono_id noComp lruVec
    lruVec_law lruSorter lruSorter lruSorter_byValue lruSorter_byValue 20 demo3 hfits
    (fresh_of_freshSessionsB _ _ _ (by decide +kernel))
  obtain ⟨outs', s0, g1, out0, s1, g2, g3, g4⟩ : ∃ outs s, Block.sessions (packedCells
      (D := lru Nat (id : Nat → Nat)) (lruAccess Nat id) noComp lruVec lruSorter lruSorter)
      (Compressed.new 20, (0 : Nat)) demo3 = .ok (outs, s) ∧
      ∃ out s', (packed (lru Nat (id : Nat → Nat)) noComp lruVec lruSorter lruSorter).pop s 1 =
        .ok (out, s') ∧ out.map Prod.fst = [1] ∧
      2 ∈ ((packed (lru Nat (id : Nat → Nat)) noComp lruVec lruSorter lruSorter).contents s').map
        Prod.fst := by
    refine ⟨_, _, rfl, _, _, rfl, by decide +kernel, by decide +kernel⟩
  obtain ⟨-, rfl⟩ : outs' = outs ∧ s0 = s := by
    have := g1.symm.trans h1
    simpa using this
  obtain ⟨out, s', p1, p2⟩ := h2 1
  obtain ⟨rfl, rfl⟩ : out0 = out ∧ s1 = s' := by
    have := g2.symm.trans p1
    simpa using this
  obtain ⟨x, hx, ex⟩ : ∃ x ∈ out0, x.1 = 1 := by
    have : 1 ∈ out0.map Prod.fst := by rw [g3]; decide
    exact List.mem_map.1 this
  obtain ⟨y, hy, ey⟩ := List.mem_map.1 g4
  have := p2 x hx y hy
  rw [ex, ey, show demo3.flatMap usedBy = [1, 2, 1] from by decide +kernel] at this
  obtain ⟨a, b, e, m1, m2, m3⟩ := this
  have hb : b <:+ [1, 2, 1] := ⟨a, e.symm⟩
  simp only [List.suffix_cons_iff, List.suffix_nil] at hb
  rcases hb with rfl | rfl | rfl | rfl
  · exact m2 (by decide)
  · exact m2 (by decide)
  · exact m2 (by decide)
  · revert m3; decide

end Byoc.CellProps
