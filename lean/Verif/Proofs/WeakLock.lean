import Verif.Model.WeakLock
import Verif.Proofs.Lock
import Mathlib.Logic.Relation

/-! # `RWLock` on weak memory: happens before, invariants -/

namespace Byoc.WeakLock

open Lock

/-! ## Happens before (specification) -/

/-- Program order: `p` is before `q` in the same thread. -/
def Po (l : List (Nat × Mem)) (p q : Nat) : Prop :=
  p < q ∧ ∃ i e e', l[p]? = some (i, e) ∧ l[q]? = some (i, e')

/-- `p` synchronizes with `q`: `p` is a releasing operation that wrote value number `j + 1`, and `q` an acquiring
one that reads value number `j + 1` or a later one (all values but the first are written by read-modify-write
operations: they continue the release sequence of `p`). -/
def Sw (l : List (Nat × Mem)) (p q : Nat) : Prop :=
  ∃ i i' j o j' o', l[p]? = some (i, .rmw j o) ∧ o.releases = true ∧ j < j' ∧ o'.acquires = true ∧
    (l[q]? = some (i', .load j' o') ∨ l[q]? = some (i', .rmw j' o'))

/-- Happens before. -/
def Hb (l : List (Nat × Mem)) : Nat → Nat → Prop := Relation.TransGen fun p q => Po l p q ∨ Sw l p q

/-- Both access the data, one of them writes it. -/
def Conflict : Mem → Mem → Prop
  | .dataWrite, .dataWrite | .dataWrite, .dataRead | .dataRead, .dataWrite => True
  | _, _ => False

/-- No data race: conflicting accesses of different threads are ordered. -/
def RaceFree (l : List (Nat × Mem)) : Prop :=
  ∀ p q i j e e', l[p]? = some (i, e) → l[q]? = some (j, e') → i ≠ j → Conflict e e' → Hb l p q ∨ Hb l q p

/-! ## Traces grow -/

theorem getElem?_snoc {l : List (Nat × Mem)} {x} {p : Nat} {y} (h : l[p]? = some y) : (l ++ [x])[p]? = some y := by
  rw [List.getElem?_append_left (List.getElem?_eq_some_iff.1 h).1, h]

theorem getElem?_last (l : List (Nat × Mem)) (x) : (l ++ [x])[l.length]? = some x := by simp

theorem Hb.snoc {l : List (Nat × Mem)} {x} {p q : Nat} (h : Hb l p q) : Hb (l ++ [x]) p q := by
  refine Relation.TransGen.mono ?_ p q h
  rintro p q (⟨h1, i, e, e', h2, h3⟩ | ⟨i, i', j, o, j', o', h1, h2, h3, h4, h5⟩)
  · exact .inl ⟨h1, i, e, e', getElem?_snoc h2, getElem?_snoc h3⟩
  · exact .inr ⟨i, i', j, o, j', o', getElem?_snoc h1, h2, h3, h4, h5.imp getElem?_snoc getElem?_snoc⟩

theorem Po.last {l : List (Nat × Mem)} {i e e'} {p : Nat} (h : l[p]? = some (i, e)) :
    Hb (l ++ [(i, e')]) p l.length :=
  .single (.inl ⟨(List.getElem?_eq_some_iff.1 h).1, i, e, e', getElem?_snoc h, getElem?_last _ _⟩)

/-- A releasing operation happens after or is `p`. -/
def Published (l : List (Nat × Mem)) (p : Nat) : Prop :=
  ∃ q i j o, l[q]? = some (i, .rmw j o) ∧ o.releases = true ∧ (p = q ∨ Hb l p q)

/-- Thread `i` did something that happens after `p`. -/
def Known (l : List (Nat × Mem)) (i p : Nat) : Prop := ∃ q e, l[q]? = some (i, e) ∧ Hb l p q

theorem Published.snoc {l : List (Nat × Mem)} {x} {p : Nat} (h : Published l p) : Published (l ++ [x]) p := by
  obtain ⟨q, i, j, o, h1, h2, h3⟩ := h
  exact ⟨q, i, j, o, getElem?_snoc h1, h2, h3.imp id Hb.snoc⟩

theorem Known.snoc {l : List (Nat × Mem)} {x} {i p : Nat} (h : Known l i p) : Known (l ++ [x]) i p := by
  obtain ⟨q, e, h1, h2⟩ := h
  exact ⟨q, e, getElem?_snoc h1, h2.snoc⟩

/-! ## The word and the local variables -/

/-- What the local variables of a thread can be, given the values it may still read. -/
structure Good (hist : List Nat) (t : Th) : Prop where
  loc : t.toTh.Loc
  coh : t.coh < hist.length
  shared : 1 ≤ t.toTh.sharedCount → ∀ j v, t.coh ≤ j → hist[j]? = some v → 1 ≤ v % 2 ^ 63 ∧ v % 2 ^ 63 < 2 ^ 62
  excl : 1 ≤ t.toTh.exclCount → ∀ j v, t.coh ≤ j → hist[j]? = some v → v = EXCLUSIVE ∨ v = POISONED + EXCLUSIVE

/-- Nobody can get the lock any more: it is poisoned, or was not given back. -/
def Dead (w x : Nat) : Prop := 2 ^ 63 ≤ w ∨ (w = 2 ^ 62 ∧ x = 0)

/-- Everything one step of one thread does: `w` is the word, `r` and `x` what the other threads have. -/
structure StepOk (hist : List Nat) (t : Th) (a : Act) (hist' : List Nat) (t' : Th) (e : Mem) (w r x : Nat) : Prop where
  good : Good hist' t'
  /-- the values grow by at most one, the new word fits -/
  word : ∃ w', (hist' = hist ∧ w' = w ∧ (∀ j o, e ≠ .rmw j o) ∨
      hist' = hist ++ [w'] ∧ ∃ o, e = .rmw (hist.length - 1) o ∧ o.releases = true ∧ o.acquires = true) ∧
    Word w' (r + t'.toTh.sharedCount) (x + t'.toTh.exclCount) ∧
    (Dead w (x + t.toTh.exclCount) → Dead w' (x + t'.toTh.exclCount)) ∧
    -- exclusive access ends with a releasing operation, or for ever
    (1 ≤ t.toTh.exclCount → t'.toTh.exclCount = 0 → hist' ≠ hist ∨ Dead w' (x + t'.toTh.exclCount)) ∧
    -- shared access ends with a releasing operation
    (t'.toTh.sharedCount < t.toTh.sharedCount → hist' ≠ hist)
  /-- exclusive access begins with an acquiring operation, when nobody has any access -/
  wr : t'.writer = true → t.writer = true ∨ (w = 0 ∧ hist' ≠ hist)
  /-- shared access begins with an acquiring operation, when nobody has exclusive access -/
  rd : 0 < t'.readers → 0 < t.readers ∨ (w < 2 ^ 62 ∧ hist' ≠ hist)
  dr : e = .dataRead → t' = t ∧ (t.writer = true ∨ 0 < t.readers)
  dw : e = .dataWrite → t' = t ∧ t.writer = true

theorem cas_eq {hist : List Nat} {coh old new : Nat} {ok err : Order} {fail : Bool} {j v : Nat} {b : Bool}
    {hist' : List Nat} {coh' : Nat} {e : Mem} (h : cas hist coh old new ok err fail j = some (v, b, hist', coh', e)) :
    (b = true ∧ v = old ∧ hist.getLast? = some old ∧ hist' = hist ++ [new] ∧ coh' = hist.length ∧
      e = .rmw (hist.length - 1) ok) ∨
    (b = false ∧ hist' = hist ∧ coh ≤ coh' ∧ hist[coh']? = some v ∧ e = .load coh' err) := by
  unfold cas at h
  split at h
  · rename_i h0
    simp only [Option.some.injEq, Prod.mk.injEq] at h
    obtain ⟨rfl, rfl, rfl, rfl, rfl⟩ := h
    exact .inl ⟨rfl, rfl, h0.1, rfl, rfl, rfl⟩
  · split at h
    · rename_i h1
      simp only [Option.map_eq_some_iff, Prod.mk.injEq] at h
      obtain ⟨v', h2, rfl, rfl, rfl, rfl, rfl⟩ := h
      exact .inr ⟨rfl, rfl, h1, h2, rfl⟩
    · simp at h

/-- A thread that knows the last value. -/
theorem Good.own {hist : List Nat} {v : Nat} {t : Th} (hl : t.toTh.Loc) (hc : t.coh = hist.length)
    (h1 : 1 ≤ t.toTh.sharedCount → 1 ≤ v % 2 ^ 63 ∧ v % 2 ^ 63 < 2 ^ 62)
    (h2 : 1 ≤ t.toTh.exclCount → v = EXCLUSIVE ∨ v = POISONED + EXCLUSIVE) : Good (hist ++ [v]) t := by
  have key : ∀ j u, t.coh ≤ j → (hist ++ [v])[j]? = some u → u = v := by
    intro j u hj hu
    have := (List.getElem?_eq_some_iff.1 hu).1
    simp only [List.length_append, List.length_cons, List.length_nil] at this
    have : j = hist.length := by omega
    subst this
    simpa using hu.symm
  refine ⟨hl, by simp [hc], fun h j u hj hu => ?_, fun h j u hj hu => ?_⟩
  · rw [key j u hj hu]; exact h1 h
  · rw [key j u hj hu]; exact h2 h

/-- Another thread appends a value. -/
theorem Good.grow {hist : List Nat} {v : Nat} {t : Th} (h : Good hist t)
    (h1 : 1 ≤ t.toTh.sharedCount → 1 ≤ v % 2 ^ 63 ∧ v % 2 ^ 63 < 2 ^ 62)
    (h2 : 1 ≤ t.toTh.exclCount → v = EXCLUSIVE ∨ v = POISONED + EXCLUSIVE) : Good (hist ++ [v]) t := by
  have key : ∀ (j : Nat) u, (hist ++ [v])[j]? = some u → hist[j]? = some u ∨ u = v := by
    intro j u hu
    rw [List.getElem?_append] at hu
    split at hu
    · exact .inl hu
    · right
      have := List.mem_of_getElem? hu
      simpa using this
  refine ⟨h.loc, by have := h.coh; simp; omega, fun g j u hj hu => ?_, fun g j u hj hu => ?_⟩
  · rcases key j u hu with k | rfl
    · exact h.shared g j u hj k
    · exact h1 g
  · rcases key j u hu with k | rfl
    · exact h.excl g j u hj k
    · exact h2 g

/-- A thread reads and keeps what it has. -/
theorem Good.read {hist : List Nat} {t t' : Th} (h : Good hist t) (hl : t'.toTh.Loc) (hc : t.coh ≤ t'.coh)
    (hc' : t'.coh < hist.length) (h1 : t'.toTh.sharedCount ≤ t.toTh.sharedCount)
    (h2 : t'.toTh.exclCount ≤ t.toTh.exclCount) : Good hist t' :=
  ⟨hl, hc', fun g j v hj hv => h.shared (by omega) j v (by omega) hv,
    fun g j v hj hv => h.excl (by omega) j v (by omega) hv⟩

/-- A step that does not write the word. -/
theorem StepOk.silent {hist : List Nat} {t t' : Th} {a e w r x} (hg : Good hist t')
    (hw : Word w (r + t.toTh.sharedCount) (x + t.toTh.exclCount))
    (he : ∀ j o, e ≠ .rmw j o) (h1 : t'.toTh.sharedCount = t.toTh.sharedCount)
    (h2 : t'.toTh.exclCount = t.toTh.exclCount) (h3 : t'.writer = true → t.writer = true)
    (h4 : t'.readers ≤ t.readers) (hd : e ≠ .dataRead) (hd' : e ≠ .dataWrite) :
    StepOk hist t a hist t' e w r x := by
  refine ⟨hg, ⟨w, .inl ⟨rfl, rfl, he⟩, by rw [h1, h2]; exact hw, by rw [h2]; exact id, ?_, ?_⟩,
    fun h => .inl (h3 h), fun h => .inl (by omega), fun h => (hd h).elim, fun h => (hd' h).elim⟩
  · intro a b; omega
  · intro a; omega

theorem stepTh_ok {hist hist' : List Nat} {t t' : Th} {a e} {w r x : Nat} (hg : Good hist t)
    (hlast : hist.getLast? = some w) (hv : ∀ v ∈ hist, v < 2 ^ 64)
    (hw : Word w (r + t.toTh.sharedCount) (x + t.toTh.exclCount)) (hs : stepTh hist t a = some (hist', t', e))
    (hb : r + t'.toTh.sharedCount < 2 ^ 62) :
    StepOk hist t a hist' t' e w r x := by
  have hw64 : w < 2 ^ 64 := hw.1
  have hwd := hw.2
  have hE := hE
  have hP := hP
  obtain ⟨⟨pc, rd, wr⟩, coh⟩ := t
  have hcoh : coh < hist.length := hg.coh
  cases a with
  | acquire m wait =>
    simp only [stepTh, Option.ite_none_right_eq_some, Option.some.injEq, Prod.mk.injEq] at hs
    obtain ⟨h0, rfl, rfl, rfl⟩ := hs
    replace h0 : pc = .idle := h0
    subst h0
    exact .silent (hg.read (by simp [Th.Loc]) (Nat.le_refl _) hcoh (by simp [Th.sharedCount]) (by simp [Th.exclCount])) hw
      (by simp) (by simp [Th.sharedCount]) (by simp [Th.exclCount]) id (Nat.le_refl _) (by simp) (by simp)
  | release =>
    simp only [stepTh, Option.ite_none_right_eq_some] at hs
    obtain ⟨h0, hs⟩ := hs
    replace h0 : pc = .idle := h0
    subst h0
    cases wr with
    | true =>
      simp at hs
      obtain ⟨rfl, rfl, rfl⟩ := hs
      exact .silent (hg.read (by simp [Th.Loc]) (Nat.le_refl _) hcoh (by simp [Th.sharedCount]) (by simp [Th.exclCount])) hw
        (by simp) (by simp [Th.sharedCount]) (by simp [Th.exclCount]) (by simp) (Nat.le_refl _) (by simp) (by simp)
    | false =>
      simp at hs
      obtain ⟨h1, rfl, rfl, rfl⟩ := hs
      exact .silent (hg.read (by simp [Th.Loc]) (Nat.le_refl _) hcoh (by simp [Th.sharedCount]; omega) (by simp [Th.exclCount])) hw
        (by simp) (by simp [Th.sharedCount]; omega) (by simp [Th.exclCount]) (by simp) (by simp) (by simp) (by simp)
  | panicDrop =>
    simp only [stepTh, Option.ite_none_right_eq_some, hlast, Option.map_some, Option.some.injEq, Prod.mk.injEq] at hs
    obtain ⟨h0, rfl, rfl, rfl⟩ := hs
    replace h0 : pc = .idle := h0
    subst h0
    have ho := or_poisoned hw64
    rw [ho] at *
    refine ⟨.own hg.loc rfl ?_ ?_, ⟨w % 2 ^ 63 + 2 ^ 63, .inr ⟨rfl, _, rfl, rfl, rfl⟩, ?_, ?_, ?_, ?_⟩, ?_, ?_, by simp, by simp⟩
    · simp only [Th.sharedCount, Th.exclCount, Nat.add_zero] at *; omega
    · simp only [Th.sharedCount, Th.exclCount, Nat.add_zero] at *; omega
    · simp only [Th.sharedCount, Th.exclCount, Nat.add_zero] at *
      refine ⟨by omega, ?_⟩; omega
    · intro _; exact .inl (by omega)
    · intro _ _; simp
    · intro _; simp
    · exact .inl
    · exact .inl
  | dataRead =>
    simp only [stepTh, Option.ite_none_right_eq_some, Option.some.injEq, Prod.mk.injEq] at hs
    obtain ⟨h0, rfl, rfl, rfl⟩ := hs
    refine ⟨hg, ⟨w, .inl ⟨rfl, rfl, by simp⟩, hw, id, by intro a b; omega, by omega⟩, .inl, .inl, fun _ => ⟨rfl, h0.2⟩, by simp⟩
  | dataWrite =>
    simp only [stepTh, Option.ite_none_right_eq_some, Option.some.injEq, Prod.mk.injEq] at hs
    obtain ⟨h0, rfl, rfl, rfl⟩ := hs
    refine ⟨hg, ⟨w, .inl ⟨rfl, rfl, by simp⟩, hw, id, by intro a b; omega, by omega⟩, .inl, .inl, by simp, fun _ => ⟨rfl, h0.2⟩⟩
  | run fail j =>
    cases pc with
    | idle => simp [stepTh] at hs
    | load m wait =>
      simp only [stepTh, Option.ite_none_right_eq_some, Option.map_eq_some_iff, Prod.mk.injEq] at hs
      obtain ⟨hj, v, hjv, rfl, rfl, rfl⟩ := hs
      have hjl := (List.getElem?_eq_some_iff.1 hjv).1
      have hv64 := hv v (List.mem_of_getElem? hjv)
      have key : ∀ pc', (pc' = .idle ∨ pc' = .load m wait ∨ (pc' = .cas m wait v ∧ v < 2 ^ 62)) →
          StepOk hist ⟨⟨.load m wait, rd, wr⟩, coh⟩ (.run fail j) hist ⟨⟨pc', rd, wr⟩, j⟩ (.load j .seqCst) w r x := by
        rintro pc' (rfl | rfl | ⟨rfl, hlt⟩) <;>
        exact .silent (hg.read (by simp [Th.Loc, *]) hj hjl (by simp [Th.sharedCount]) (by simp [Th.exclCount])) hw
          (by simp) (by simp [Th.sharedCount]) (by simp [Th.exclCount]) id (Nat.le_refl _) (by simp) (by simp)
      refine key _ ?_
      by_cases hp : v &&& POISONED ≠ 0
      · simp [hp]
      · rw [if_neg hp]
        rw [and_poisoned hv64] at hp
        by_cases hx : v &&& EXCLUSIVE ≠ 0
        · rw [if_pos hx]
          cases wait <;> simp
        · rw [if_neg hx]
          rw [and_exclusive (by omega)] at hx
          exact .inr (.inr ⟨rfl, by omega⟩)
    | cas m wait count =>
      have hc : count < 2 ^ 62 := by simpa [Th.Loc] using hg.loc
      have fails : ∀ c', coh ≤ c' → c' < hist.length → ∀ o : Order,
          StepOk hist ⟨⟨.cas m wait count, rd, wr⟩, coh⟩ (.run fail j) hist
            ⟨⟨if wait then .load m wait else .idle, rd, wr⟩, c'⟩ (.load c' o) w r x := by
        intro c' h1 h2 o
        cases wait <;>
        exact .silent (hg.read (by simp [Th.Loc]) h1 h2 (by simp [Th.sharedCount]) (by simp [Th.exclCount])) hw
          (by simp) (by simp [Th.sharedCount]) (by simp [Th.exclCount]) id (Nat.le_refl _) (by simp) (by simp)
      cases m with
      | shared =>
        simp only [stepTh, Option.map_eq_some_iff] at hs
        obtain ⟨⟨v, b, hist₁, coh', e₁⟩, h1, h2⟩ := hs
        rcases cas_eq h1 with ⟨rfl, rfl, h3, rfl, rfl, rfl⟩ | ⟨rfl, rfl, h3, h4, rfl⟩
        · have hwv : w = v := by rw [hlast] at h3; exact Option.some.inj h3
          subst hwv
          simp only [if_true, Prod.mk.injEq] at h2
          obtain ⟨rfl, rfl, rfl⟩ := h2
          simp only [Th.sharedCount, Th.exclCount, Nat.add_zero] at hw hwd hb
          refine ⟨.own (by simp [Th.Loc]) rfl ?_ ?_, ⟨w + 1, .inr ⟨rfl, _, rfl, rfl, rfl⟩, ?_, ?_, ?_, ?_⟩, ?_, ?_, by simp, by simp⟩
          · intro _; omega
          · simp only [Th.exclCount, Nat.add_zero]; omega
          · simp only [Th.sharedCount, Th.exclCount, Nat.add_zero]
            refine ⟨by omega, ?_⟩; omega
          · simp only [Dead, Th.exclCount]; omega
          · intro _ _; simp
          · intro _; simp
          · exact .inl
          · exact fun _ => .inr ⟨hc, by simp⟩
        · simp only [Bool.false_eq_true, if_false, Prod.mk.injEq] at h2
          obtain ⟨rfl, rfl, rfl⟩ := h2
          exact fails _ h3 (List.getElem?_eq_some_iff.1 h4).1 _
      | excl =>
        simp only [stepTh, Option.map_eq_some_iff] at hs
        obtain ⟨⟨v, b, hist₁, coh', e₁⟩, h1, h2⟩ := hs
        rcases cas_eq h1 with ⟨rfl, rfl, h3, rfl, rfl, rfl⟩ | ⟨rfl, rfl, h3, h4, rfl⟩
        · have hwv : w = 0 := by rw [hlast] at h3; exact Option.some.inj h3
          subst hwv
          simp only [if_true, Prod.mk.injEq] at h2
          obtain ⟨rfl, rfl, rfl⟩ := h2
          simp only [Th.sharedCount, Th.exclCount, Nat.add_zero] at hw hwd hb
          refine ⟨.own (by simp [Th.Loc]) rfl ?_ ?_, ⟨EXCLUSIVE, .inr ⟨rfl, _, rfl, rfl, rfl⟩, ?_, ?_, ?_, ?_⟩, ?_, ?_, by simp, by simp⟩
          · simp only [Th.sharedCount, Nat.add_zero]; omega
          · intro _; exact .inl rfl
          · simp only [Th.sharedCount, Th.exclCount, Nat.add_zero, if_true]
            refine ⟨by omega, ?_⟩
            cases wr <;> simp at hwd <;> omega
          · simp only [Dead, Th.exclCount]; omega
          · intro _ _; simp
          · intro _; simp
          · exact fun _ => .inr ⟨rfl, by simp⟩
          · exact .inl
        · simp only [Bool.false_eq_true, if_false, Prod.mk.injEq] at h2
          obtain ⟨rfl, rfl, rfl⟩ := h2
          exact fails _ h3 (List.getElem?_eq_some_iff.1 h4).1 _
    | unlock m =>
      simp only [stepTh, Option.map_eq_some_iff] at hs
      obtain ⟨⟨v, b, hist₁, coh', e₁⟩, h1, h2⟩ := hs
      simp only [Prod.mk.injEq] at h2
      obtain ⟨rfl, rfl, rfl⟩ := h2
      cases m with
      | shared =>
        have hs1 : 1 ≤ (Th.sharedCount ⟨.unlock .shared, rd, wr⟩) := by simp [Th.sharedCount]
        simp only [Th.sharedCount, Th.exclCount, Nat.add_zero] at hwd
        rcases cas_eq h1 with ⟨rfl, rfl, h3, rfl, rfl, rfl⟩ | ⟨rfl, rfl, h3, h4, rfl⟩
        · rw [hlast] at h3
          have := Option.some.inj h3
          omega
        · have hv64 := hv v (List.mem_of_getElem? h4)
          have hloc := hg.shared hs1 coh' v h3 h4
          exact .silent (hg.read (by simp only [Th.Loc]; omega) h3 (List.getElem?_eq_some_iff.1 h4).1
            (by simp [Th.sharedCount]) (by simp [Th.exclCount])) hw
            (by simp) (by simp [Th.sharedCount]) (by simp [Th.exclCount]) id (Nat.le_refl _) (by simp) (by simp)
      | excl =>
        have hx1 : 1 ≤ (Th.exclCount ⟨.unlock .excl, rd, wr⟩) := by simp [Th.exclCount]
        simp only [Th.sharedCount, Th.exclCount, Nat.add_zero] at hwd
        rcases cas_eq h1 with ⟨rfl, rfl, h3, rfl, rfl, rfl⟩ | ⟨rfl, rfl, h3, h4, rfl⟩
        · have hwv : w = EXCLUSIVE := by rw [hlast] at h3; exact Option.some.inj h3
          refine ⟨.own (by simp [Th.Loc]) rfl ?_ ?_, ⟨0, .inr ⟨rfl, _, rfl, rfl, rfl⟩, ?_, ?_, ?_, ?_⟩, ?_, ?_, by simp, by simp⟩
          · simp only [Th.sharedCount, Nat.add_zero]; omega
          · simp only [Th.exclCount, if_true, Nat.add_zero]; omega
          · simp only [Th.sharedCount, Th.exclCount, Nat.add_zero, if_true]
            refine ⟨by omega, ?_⟩
            omega
          · simp only [Dead, Th.exclCount]; omega
          · intro _ _; left; simp
          · intro _; simp
          · exact .inl
          · exact .inl
        · have hloc := hg.excl hx1 coh' v h3 h4
          by_cases hve : v = EXCLUSIVE
          · refine ⟨hg.read (by simp only [Th.Loc]; omega) h3 (List.getElem?_eq_some_iff.1 h4).1
              (by simp [Th.sharedCount]) (by simp [Th.exclCount, hve]), ⟨w, .inl ⟨rfl, rfl, by simp⟩, ?_, ?_, ?_, ?_⟩,
              .inl, .inl, by simp, by simp⟩
            · simp only [Th.sharedCount, Th.exclCount, Nat.add_zero, if_pos hve]
              refine ⟨hw64, ?_⟩
              omega
            · simp only [Dead, Th.exclCount, if_pos hve]; omega
            · intro _ _; right
              simp only [Dead, Th.exclCount, if_pos hve]; omega
            · simp [Th.sharedCount]
          · exact .silent (hg.read (by simp only [Th.Loc]; omega) h3 (List.getElem?_eq_some_iff.1 h4).1
              (by simp [Th.sharedCount]) (by simp [Th.exclCount, hve])) hw
              (by simp) (by simp [Th.sharedCount]) (by simp [Th.exclCount, hve]) id (Nat.le_refl _) (by simp) (by simp)
    | unlockLoop m count =>
      simp only [stepTh] at hs
      cases m with
      | shared =>
        have hl' : count < 2 ^ 64 ∧ 1 ≤ count % 2 ^ 63 ∧ count % 2 ^ 63 < 2 ^ 62 := by
          simpa [Th.Loc] using hg.loc
        have hne : ¬ (count = 0 ∨ count = EXCLUSIVE) := by omega
        rw [if_neg hne] at hs
        simp only [Option.map_eq_some_iff] at hs
        obtain ⟨⟨v, b, hist₁, coh', e₁⟩, h1, h2⟩ := hs
        simp only [Prod.mk.injEq] at h2
        obtain ⟨rfl, rfl, rfl⟩ := h2
        have hs1 : 1 ≤ (Th.sharedCount ⟨.unlockLoop .shared count, rd, wr⟩) := by simp [Th.sharedCount]
        simp only [Th.sharedCount, Th.exclCount, Nat.add_zero] at hwd
        rcases cas_eq h1 with ⟨rfl, rfl, h3, rfl, rfl, rfl⟩ | ⟨rfl, rfl, h3, h4, rfl⟩
        · have hwv : w = v := by rw [hlast] at h3; exact Option.some.inj h3
          subst hwv
          refine ⟨.own (by simp [Th.Loc]) rfl ?_ ?_, ⟨w - 1, .inr ⟨rfl, _, rfl, rfl, rfl⟩, ?_, ?_, ?_, ?_⟩, ?_, ?_, by simp, by simp⟩
          · simp only [Th.sharedCount, if_true, Nat.add_zero]; omega
          · simp only [Th.exclCount, if_true, Nat.add_zero]; omega
          · simp only [Th.sharedCount, Th.exclCount, Nat.add_zero, if_true]
            refine ⟨by omega, ?_⟩
            omega
          · simp only [Dead, Th.exclCount]; omega
          · intro _ _; left; simp
          · intro _; simp
          · exact .inl
          · exact .inl
        · have hv64 := hv v (List.mem_of_getElem? h4)
          have hloc := hg.shared hs1 coh' v h3 h4
          exact .silent (hg.read (by simp only [Th.Loc, Bool.false_eq_true, if_false]; omega) h3 (List.getElem?_eq_some_iff.1 h4).1
            (by simp [Th.sharedCount]) (by simp [Th.exclCount])) hw
            (by simp) (by simp [Th.sharedCount]) (by simp [Th.exclCount]) id (Nat.le_refl _) (by simp) (by simp)
      | excl =>
        have hl' : count = EXCLUSIVE ∨ count = POISONED + EXCLUSIVE := by simpa [Th.Loc] using hg.loc
        by_cases hce : count = EXCLUSIVE
        · rw [if_pos (.inr hce)] at hs
          simp only [Option.some.injEq, Prod.mk.injEq] at hs
          obtain ⟨rfl, rfl, rfl⟩ := hs
          exact .silent (hg.read (by simp [Th.Loc]) (Nat.le_refl _) hcoh
            (by simp [Th.sharedCount]) (by simp [Th.exclCount])) hw
            (by simp) (by simp [Th.sharedCount]) (by simp [Th.exclCount, hce]) id (Nat.le_refl _) (by simp) (by simp)
        · have hne : ¬ (count = 0 ∨ count = EXCLUSIVE) := by omega
          rw [if_neg hne] at hs
          simp only [Option.map_eq_some_iff] at hs
          obtain ⟨⟨v, b, hist₁, coh', e₁⟩, h1, h2⟩ := hs
          simp only [Prod.mk.injEq] at h2
          obtain ⟨rfl, rfl, rfl⟩ := h2
          have hx1 : 1 ≤ (Th.exclCount ⟨.unlockLoop .excl count, rd, wr⟩) := by simp [Th.exclCount, hce]
          simp only [Th.sharedCount, Th.exclCount, Nat.add_zero, if_neg hce] at hwd
          rcases cas_eq h1 with ⟨rfl, rfl, h3, rfl, rfl, rfl⟩ | ⟨rfl, rfl, h3, h4, rfl⟩
          · have hwv : w = v := by rw [hlast] at h3; exact Option.some.inj h3
            subst hwv
            refine ⟨.own (by simp [Th.Loc]) rfl ?_ ?_, ⟨w - 1, .inr ⟨rfl, _, rfl, rfl, rfl⟩, ?_, ?_, ?_, ?_⟩, ?_, ?_, by simp, by simp⟩
            · simp only [Th.sharedCount, if_true, Nat.add_zero]; omega
            · simp only [Th.exclCount, if_true, Nat.add_zero]; omega
            · simp only [Th.sharedCount, Th.exclCount, Nat.add_zero, if_true]
              refine ⟨by omega, ?_⟩
              omega
            · simp only [Dead, Th.exclCount]; omega
            · intro _ _; left; simp
            · intro _; simp
            · exact .inl
            · exact .inl
          · have hloc := hg.excl hx1 coh' v h3 h4
            by_cases hve : v = EXCLUSIVE
            · refine ⟨hg.read (by simp only [Th.Loc, Bool.false_eq_true, if_false]; omega) h3 (List.getElem?_eq_some_iff.1 h4).1
                (by simp [Th.sharedCount]) (by simp [Th.exclCount, hve]), ⟨w, .inl ⟨rfl, rfl, by simp⟩, ?_, ?_, ?_, ?_⟩,
                .inl, .inl, by simp, by simp⟩
              · simp only [Th.sharedCount, Th.exclCount, Nat.add_zero, Bool.false_eq_true, if_false, if_pos hve]
                refine ⟨hw64, ?_⟩
                omega
              · simp only [Dead, Th.exclCount, Bool.false_eq_true, if_false, if_pos hve]; omega
              · intro _ _; right
                simp only [Dead, Th.exclCount, Bool.false_eq_true, if_false, if_pos hve]; omega
              · simp [Th.sharedCount]
            · exact .silent (hg.read (by simp only [Th.Loc, Bool.false_eq_true, if_false]; omega) h3 (List.getElem?_eq_some_iff.1 h4).1
                (by simp [Th.sharedCount]) (by simp [Th.exclCount, hve, hce])) hw
                (by simp) (by simp [Th.sharedCount]) (by simp [Th.exclCount, hve, hce]) id (Nat.le_refl _) (by simp) (by simp)

/-! ## The trace -/

/-- Number of exclusive accesses held or being given back. -/
def State.exclCount (s : State) : Nat := (s.threads.map fun t => t.toTh.exclCount).sum

structure Inv (l : List (Nat × Mem)) (s : State) (w : Nat) : Prop where
  last : s.hist.getLast? = some w
  word : Word w s.sharedCount s.exclCount
  small : ∀ v ∈ s.hist, v < 2 ^ 64
  good : ∀ t ∈ s.threads, Good s.hist t
  idx : ∀ (p i j : Nat) (o : Order), l[p]? = some (i, Mem.rmw j o) → j + 1 < s.hist.length
  pw : ∀ (p i : Nat), l[p]? = some (i, .dataWrite) →
    Published l p ∨ (∃ t, s.threads[i]? = some t ∧ 1 ≤ t.toTh.exclCount) ∨ Dead w s.exclCount
  pr : ∀ (p i : Nat), l[p]? = some (i, .dataRead) →
    Published l p ∨ (∃ t, s.threads[i]? = some t ∧ (1 ≤ t.toTh.exclCount ∨ 1 ≤ t.toTh.sharedCount)) ∨ Dead w s.exclCount
  kw : ∀ (p i j : Nat) t, l[p]? = some (i, .dataWrite) → i ≠ j → s.threads[j]? = some t →
    (t.writer = true ∨ 0 < t.readers) → Known l j p
  kr : ∀ (p i j : Nat) t, l[p]? = some (i, .dataRead) → i ≠ j → s.threads[j]? = some t →
    t.writer = true → Known l j p
  order : ∀ (p q i j : Nat) e e', p < q → l[p]? = some (i, e) → l[q]? = some (j, e') → i ≠ j → Conflict e e' → Hb l p q

theorem init_inv (n : Nat) : Inv [] (init n) 0 := by
  have hth : ∀ t ∈ (init n).threads, t = ⟨.new, 0⟩ := fun t h => (List.mem_replicate.1 h).2
  have h1 : (init n).sharedCount = 0 := by simp [init, State.sharedCount, Th.new, Th.sharedCount]
  have h2 : (init n).exclCount = 0 := by simp [init, State.exclCount, Th.new, Th.exclCount]
  refine ⟨rfl, ?_, by simp [init], ?_, by simp, by simp, by simp, by simp, by simp, by simp⟩
  · rw [h1, h2]; exact ⟨by decide, .inl ⟨rfl, rfl, by decide⟩⟩
  · intro t ht
    rw [hth t ht]
    exact ⟨by simp [Th.Loc, Th.new], by simp [init], by simp [Th.sharedCount, Th.new], by simp [Th.exclCount, Th.new]⟩

theorem snoc_cases {l : List (Nat × Mem)} {x y} {p : Nat} (h : (l ++ [x])[p]? = some y) :
    l[p]? = some y ∨ (p = l.length ∧ y = x) := by
  rw [List.getElem?_append] at h
  split at h
  · exact .inl h
  · right
    have := List.getElem?_eq_some_iff.1 h
    obtain ⟨h1, h2⟩ := this
    simp only [List.length_cons, List.length_nil] at h1
    refine ⟨by omega, ?_⟩
    have := List.mem_of_getElem? h
    simpa using this

theorem excl_of_writer {t : Th} (h : t.writer = true) : 1 ≤ t.toTh.exclCount := by
  simp [Th.exclCount, h]

theorem shared_of_readers (t : Th) : t.readers ≤ t.toTh.sharedCount := by
  simp only [Th.sharedCount]; omega

theorem step_eq {s s' : State} {i a e} (h : step s i a = some (s', e)) :
    ∃ t hist' t', s.threads[i]? = some t ∧ stepTh s.hist t a = some (hist', t', e) ∧
      s' = ⟨hist', s.threads.set i t'⟩ := by
  unfold step at h
  split at h
  · simp at h
  · rename_i t ht
    simp only [Option.map_eq_some_iff, Prod.mk.injEq] at h
    obtain ⟨⟨w', t', e'⟩, h1, h2, h3⟩ := h
    subst h3
    exact ⟨t, w', t', ht, h1, h2.symm⟩

/-- Mutual exclusion, from the invariant. -/
theorem Inv.exclusive {l : List (Nat × Mem)} {s : State} {w : Nat} (hi : Inv l s w) {i j : Nat} {t u : Th} (hij : i ≠ j) (ht : s.threads[i]? = some t)
    (hu : s.threads[j]? = some u) (hw : t.writer = true) : u.writer = false ∧ u.readers = 0 := by
  have hx := le_sum_two (fun t : Th => t.toTh.exclCount) s.threads i j t u hij ht hu
  have hs := le_sum (fun t : Th => t.toTh.sharedCount) s.threads u (List.mem_of_getElem? hu)
  have hxt := excl_of_writer hw
  have hr := shared_of_readers u
  have hword := hi.word.2
  simp only [State.sharedCount, State.exclCount] at hword
  constructor
  · cases hc : u.writer
    · rfl
    · have := excl_of_writer hc
      beta_reduce at hx
      omega
  · omega

theorem step_inv {l : List (Nat × Mem)} {s s' : State} {w i a e} (hi : Inv l s w) (h : step s i a = some (s', e))
    (hb : s'.sharedCount < 2 ^ 62) : ∃ w', Inv (l ++ [(i, e)]) s' w' := by
  obtain ⟨t, hist', t', ht, hst, rfl⟩ := step_eq h
  have hmem := List.mem_of_getElem? ht
  have hr := sum_set (fun t : Th => t.toTh.sharedCount) s.threads i t t' ht
  have hx := sum_set (fun t : Th => t.toTh.exclCount) s.threads i t t' ht
  have hlr := le_sum (fun t : Th => t.toTh.sharedCount) s.threads t hmem
  have hlx := le_sum (fun t : Th => t.toTh.exclCount) s.threads t hmem
  simp only [State.sharedCount] at hb
  beta_reduce at hr hx hlr hlx
  have ok := stepTh_ok (r := (s.threads.map fun t => t.toTh.sharedCount).sum - t.toTh.sharedCount)
    (x := (s.threads.map fun t => t.toTh.exclCount).sum - t.toTh.exclCount)
    (hi.good t hmem) hi.last hi.small
    (by rw [Nat.sub_add_cancel hlr, Nat.sub_add_cancel hlx]; exact hi.word) hst (by omega)
  have e1 : ((s.threads.set i t').map fun t => t.toTh.sharedCount).sum =
    (s.threads.map fun t => t.toTh.sharedCount).sum - t.toTh.sharedCount + t'.toTh.sharedCount := by omega
  have e2 : ((s.threads.set i t').map fun t => t.toTh.exclCount).sum =
    (s.threads.map fun t => t.toTh.exclCount).sum - t.toTh.exclCount + t'.toTh.exclCount := by omega
  obtain ⟨w', hcase, hword, hdead, hxend, hsend⟩ := ok.word
  rw [← e1, ← e2] at hword
  rw [← e2, Nat.sub_add_cancel hlx] at hdead
  rw [← e2] at hxend
  have hwd := hi.word.2
  simp only [State.sharedCount, State.exclCount] at hwd
  -- the operation, if it writes the word
  have hrmw : hist' ≠ s.hist → ∃ o, e = .rmw (s.hist.length - 1) o ∧ o.releases = true ∧ o.acquires = true := by
    intro hne
    rcases hcase with ⟨h1, -⟩ | ⟨-, h2⟩
    · exact (hne h1).elim
    · exact h2
  have hpub : hist' ≠ s.hist → ∀ p e₀, l[p]? = some (i, e₀) → Published (l ++ [(i, e)]) p := by
    intro hne p e₀ hp
    obtain ⟨o, h1, h2, -⟩ := hrmw hne
    exact ⟨l.length, i, _, o, by rw [getElem?_last, h1], h2, .inr (Po.last hp)⟩
  have hlen : 0 < s.hist.length := by
    cases hh : s.hist with
    | nil => have := hi.last; rw [hh] at this; simp at this
    | cons => simp
  have hknow : hist' ≠ s.hist → ∀ p, Published l p → Known (l ++ [(i, e)]) i p := by
    intro hne p hp
    obtain ⟨o, h1, -, h3⟩ := hrmw hne
    obtain ⟨q, i', j, o', g1, g2, g3⟩ := hp
    have hj := hi.idx q i' j o' g1
    have hsw : Hb (l ++ [(i, e)]) q l.length :=
      .single (.inr ⟨i', i, j, o', s.hist.length - 1, o, getElem?_snoc g1, g2, by omega, h3,
        .inr (by rw [getElem?_last, h1])⟩)
    refine ⟨l.length, e, getElem?_last _ _, ?_⟩
    rcases g3 with rfl | g3
    · exact hsw
    · exact g3.snoc.trans hsw
  have hself : (s.threads.set i t')[i]? = some t' := by
    rw [List.getElem?_set_self (List.getElem?_eq_some_iff.1 ht).1]
  have hother : ∀ j, j ≠ i → (s.threads.set i t')[j]? = s.threads[j]? := fun j hj =>
    List.getElem?_set_ne (Ne.symm hj)
  refine ⟨w', ?_, hword, ?_, ?_, ?_, ?_, ?_, ?_, ?_, ?_⟩
  · -- last
    rcases hcase with ⟨rfl, rfl, -⟩ | ⟨rfl, -⟩
    · exact hi.last
    · simp
  · -- small
    rcases hcase with ⟨rfl, rfl, -⟩ | ⟨rfl, -⟩
    · exact hi.small
    · intro v hv
      rcases List.mem_append.1 hv with hv | hv
      · exact hi.small v hv
      · rw [List.mem_singleton.1 hv]; exact hword.1
  · -- good
    intro u hu
    obtain ⟨j, hj⟩ := List.getElem?_of_mem hu
    by_cases hji : j = i
    · subst hji
      rw [hself] at hj
      cases hj
      exact ok.good
    · rw [hother j hji] at hj
      have hgu := hi.good u (List.mem_of_getElem? hj)
      have l1 := le_sum_two (fun t : Th => t.toTh.sharedCount) s.threads i j t u (Ne.symm hji) ht hj
      have l2 := le_sum_two (fun t : Th => t.toTh.exclCount) s.threads i j t u (Ne.symm hji) ht hj
      beta_reduce at l1 l2
      have hwd' := hword.2
      have hw64 := hword.1
      have hE := hE
      have hP := hP
      rcases hcase with ⟨rfl, rfl, -⟩ | ⟨rfl, -⟩
      · exact hgu
      · refine hgu.grow ?_ ?_
        · intro h1; omega
        · intro h1; omega
  · -- idx
    intro p i' j o hp₀
    obtain hp | ⟨rfl, hp⟩ := snoc_cases hp₀
    · have := hi.idx p i' j o hp
      rcases hcase with ⟨rfl, -⟩ | ⟨rfl, -⟩
      · exact this
      · simp; omega
    · simp only [Prod.mk.injEq] at hp
      obtain ⟨rfl, rfl⟩ := hp
      rcases hcase with ⟨-, -, h1⟩ | ⟨rfl, o', h1, -⟩
      · exact (h1 j o rfl).elim
      · simp only [Mem.rmw.injEq] at h1
        simp; omega
  · -- pw
    intro p i' hp₀
    obtain hp | ⟨rfl, hp⟩ := snoc_cases hp₀
    · rcases hi.pw p i' hp with h1 | ⟨u, h1, h2⟩ | h1
      · exact .inl h1.snoc
      · by_cases hii : i' = i
        · subst hii
          rw [ht] at h1
          cases h1
          by_cases hz : t'.toTh.exclCount = 0
          · rcases hxend h2 hz with h3 | h3
            · exact .inl (hpub h3 p _ hp)
            · exact .inr (.inr h3)
          · exact .inr (.inl ⟨t', hself, by omega⟩)
        · exact .inr (.inl ⟨u, by rw [hother i' hii]; exact h1, h2⟩)
      · exact .inr (.inr (hdead h1))
    · simp only [Prod.mk.injEq] at hp
      obtain ⟨rfl, rfl⟩ := hp
      obtain ⟨h1, h2⟩ := ok.dw rfl
      exact .inr (.inl ⟨t', hself, by rw [h1]; exact excl_of_writer h2⟩)
  · -- pr
    intro p i' hp₀
    obtain hp | ⟨rfl, hp⟩ := snoc_cases hp₀
    · rcases hi.pr p i' hp with h1 | ⟨u, h1, h2⟩ | h1
      · exact .inl h1.snoc
      · by_cases hii : i' = i
        · subst hii
          rw [ht] at h1
          cases h1
          by_cases hz : t'.toTh.exclCount = 0 ∧ t'.toTh.sharedCount = 0
          · rcases h2 with h2 | h2
            · rcases hxend h2 hz.1 with h3 | h3
              · exact .inl (hpub h3 p _ hp)
              · exact .inr (.inr h3)
            · exact .inl (hpub (hsend (by omega)) p _ hp)
          · exact .inr (.inl ⟨t', hself, by omega⟩)
        · exact .inr (.inl ⟨u, by rw [hother i' hii]; exact h1, h2⟩)
      · exact .inr (.inr (hdead h1))
    · simp only [Prod.mk.injEq] at hp
      obtain ⟨rfl, rfl⟩ := hp
      obtain ⟨h1, h2⟩ := ok.dr rfl
      refine .inr (.inl ⟨t', hself, ?_⟩)
      rw [h1]
      rcases h2 with h2 | h2
      · exact .inl (excl_of_writer h2)
      · exact .inr (Nat.le_trans h2 (shared_of_readers t))
  · -- kw
    intro p i' j u hp₀ hij hj hu
    by_cases hji : j = i
    · subst hji
      rw [hself] at hj
      cases hj
      obtain hp | ⟨rfl, hp⟩ := snoc_cases hp₀
      · have hold : (t.writer = true ∨ 0 < t.readers) → Known (l ++ [(j, e)]) j p :=
          fun h => (hi.kw p i' j t hp hij ht h).snoc
        have hnew : w < 2 ^ 62 → hist' ≠ s.hist → Known (l ++ [(j, e)]) j p := by
          intro hw hne
          refine hknow hne p ?_
          rcases hi.pw p i' hp with h1 | ⟨v, h1, h2⟩ | h1
          · exact h1
          · have := le_sum (fun t : Th => t.toTh.exclCount) s.threads v (List.mem_of_getElem? h1)
            beta_reduce at this
            omega
          · simp only [Dead] at h1; omega
        rcases hu with hu | hu
        · rcases ok.wr hu with h1 | ⟨h1, h2⟩
          · exact hold (.inl h1)
          · exact hnew (by omega) h2
        · rcases ok.rd hu with h1 | ⟨h1, h2⟩
          · exact hold (.inr h1)
          · exact hnew h1 h2
      · simp only [Prod.mk.injEq] at hp
        exact (hij hp.1).elim
    · rw [hother j hji] at hj
      obtain hp | ⟨rfl, hp⟩ := snoc_cases hp₀
      · exact (hi.kw p i' j u hp hij hj hu).snoc
      · simp only [Prod.mk.injEq] at hp
        obtain ⟨rfl, rfl⟩ := hp
        have := hi.exclusive hij ht hj (ok.dw rfl).2
        simp [this.1, this.2] at hu
  · -- kr
    intro p i' j u hp₀ hij hj hu
    by_cases hji : j = i
    · subst hji
      rw [hself] at hj
      cases hj
      obtain hp | ⟨rfl, hp⟩ := snoc_cases hp₀
      · rcases ok.wr hu with h1 | ⟨h1, h2⟩
        · exact (hi.kr p i' j t hp hij ht h1).snoc
        · refine hknow h2 p ?_
          rcases hi.pr p i' hp with h1 | ⟨v, h1, h2⟩ | h1
          · exact h1
          · have a1 := le_sum (fun t : Th => t.toTh.exclCount) s.threads v (List.mem_of_getElem? h1)
            have a2 := le_sum (fun t : Th => t.toTh.sharedCount) s.threads v (List.mem_of_getElem? h1)
            beta_reduce at a1 a2
            omega
          · simp only [Dead] at h1; omega
      · simp only [Prod.mk.injEq] at hp
        exact (hij hp.1).elim
    · rw [hother j hji] at hj
      obtain hp | ⟨rfl, hp⟩ := snoc_cases hp₀
      · exact (hi.kr p i' j u hp hij hj hu).snoc
      · simp only [Prod.mk.injEq] at hp
        obtain ⟨rfl, rfl⟩ := hp
        have := hi.exclusive (Ne.symm hij) hj ht hu
        rcases (ok.dr rfl).2 with h | h
        · simp [this.1] at h
        · omega
  · -- order
    intro p q i' j e₀ e' hpq hp₀ hq₀ hij hc
    obtain hq | ⟨rfl, hq⟩ := snoc_cases hq₀
    · have hq' := (List.getElem?_eq_some_iff.1 hq).1
      obtain hp | ⟨rfl, -⟩ := snoc_cases hp₀
      · exact (hi.order p q i' j e₀ e' hpq hp hq hij hc).snoc
      · omega
    · simp only [Prod.mk.injEq] at hq
      obtain ⟨rfl, rfl⟩ := hq
      obtain hp | ⟨rfl, -⟩ := snoc_cases hp₀
      · have hk : Known l j p := by
          cases e₀ <;> cases e' <;> simp only [Conflict] at hc
          · exact hi.kr p i' j t hp hij ht (ok.dw rfl).2
          · exact hi.kw p i' j t hp hij ht (ok.dr rfl).2
          · exact hi.kw p i' j t hp hij ht (.inl (ok.dw rfl).2)
        obtain ⟨q, e₁, h1, h2⟩ := hk
        exact h2.snoc.trans (Po.last h1)
      · omega

theorem Run.inv {n : Nat} {l : List (Nat × Mem)} {s : State} (h : Run (init n) l s) : ∃ w, Inv l s w := by
  induction h with
  | nil => exact ⟨0, init_inv n⟩
  | snoc _ h1 h2 ih =>
    obtain ⟨w, hi⟩ := ih
    exact step_inv hi h1 h2

end Byoc.WeakLock
