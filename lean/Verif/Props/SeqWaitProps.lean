import Verif.Proofs.SeqWait
import Verif.Props.SequentialProps
import Verif.Model.InclusiveHeld

/-!
# C112: which calls on a shared `Sequential` wait, and for whom
-/

namespace Byoc.SeqWaitProps

open Byoc.Seq Byoc.Lock SequentialProps

variable {K V : Type}

/-! ## Specification: what a history says of a thread -/

/-- The last thing thread `i` did (`lastOf`: apart from passing locks) is to start call `c`, or to run
the container's method in it: the call has not returned. -/
def InCall (l : List (SEv K V)) (i : Nat) (c : SCall K V) : Prop :=
  lastOf i l = some (.called i c) ∨ ∃ r, lastOf i l = some (.executed i c r)

/-- The last thing thread `i` did is to obtain a cell, with call `c`. -/
def HasCell (l : List (SEv K V)) (i : Nat) (c : SCall K V) : Prop :=
  ∃ v, lastOf i l = some (.returned i c (.cell (some v)))

/-- Thread `i` panicked in call `c`. -/
def DiedIn (l : List (SEv K V)) (i : Nat) (c : SCall K V) : Prop :=
  lastOf i l = some (.panicked i c)

/-- Call `c` waits for those who use the container with call `c'`: every call waits for `push` and
`get_mut`; `push`, `pop`, `take` and `get_mut` also wait for `get` and `flush`. -/
def WaitsFor : SCall K V → SCall K V → Prop
  | _, .op (.push _) => True
  | _, .getMut _ => True
  | .op (.push _), .get _ => True
  | .op (.push _), .op .flush => True
  | .op (.pop _), .get _ => True
  | .op (.pop _), .op .flush => True
  | .op (.take _), .get _ => True
  | .op (.take _), .op .flush => True
  | .getMut _, .get _ => True
  | .getMut _, .op .flush => True
  | _, _ => False

/-- No thread can do its next step of a call. -/
def Stuck (C : Container K V) (s : SState K V C.block.State) : Prop := ∀ i, sstep C s i .go = none

/-- Full statement of C112: calls complete.  Whatever happened, when no thread can go on in a call, no
thread is in a call. -/
def C112_full : Prop :=
  ∀ (K V : Type) (C : Container K V) (s₀ : C.block.State) (n : Nat) (l : List (SEv K V))
    (s : SState K V C.block.State), C.ReadOnly → NeverPanics C s₀ → SRun C (.new s₀ n) l s →
    (∀ i c, .panicked i c ∉ l) → Stuck C s → ∀ i c, ¬ InCall l i c

private theorem pc_of {C : Container K V} {s₀ : C.block.State} {n : Nat} {l : List (SEv K V)}
    {s : SState K V C.block.State} (h : SRun C (.new s₀ n) l s) {i : Nat} {e}
    (he : lastOf i l = some e) : ∃ p, s.threads[i]? = some p ∧ p.After i (some e) := by
  obtain ⟨hm, rfl⟩ := lastOf_mem he
  have hlt := h.thread_lt.2 e hm
  have hp := List.getElem?_eq_getElem hlt
  exact ⟨_, hp, he ▸ h.after (new_after s₀ n) _ _ hp⟩

private theorem inCall_pc {C : Container K V} {s₀ : C.block.State} {n : Nat} {l : List (SEv K V)}
    {s : SState K V C.block.State} (h : SRun C (.new s₀ n) l s) {i : Nat} {c}
    (hc : InCall l i c) : ∃ p, s.threads[i]? = some p ∧ (∀ m, p ≠ .cell m) ∧ (∀ h, p ≠ .dead h) ∧
      p ≠ .idle ∧ ∀ c', p = .start c' → c' = c := by
  rcases hc with hc | ⟨r, hc⟩
  all_goals
    obtain ⟨p, hp, ha⟩ := pc_of h hc
    refine ⟨p, hp, ?_, ?_, ?_, ?_⟩
    · rintro m rfl; obtain ⟨_, _, h1, _⟩ := ha; simp at h1
    · rintro m rfl; obtain ⟨_, h1, _⟩ := ha; simp at h1
    · rintro rfl
      rcases ha _ rfl with ⟨_, _, h1, _⟩ | ⟨_, _, h1⟩ | h1 <;> simp at h1
    · rintro c' rfl
      simp only [Pc.After, Option.some.injEq, SEv.called.injEq, true_and, reduceCtorEq] at ha
      try exact ha.symm

private theorem waitsFor_excl {c c' : SCall K V} (h : c'.holding = some .excl) : WaitsFor c c' := by
  cases c' with
  | op o => cases o <;> (simp [SCall.holding, SCall.keeps, SCall.mode] at h; try simp [WaitsFor])
  | getMut k => simp [WaitsFor]
  | _ => simp [SCall.holding, SCall.keeps, SCall.mode] at h

private theorem waitsFor_shared {c c' : SCall K V} (hm : c.mode = .excl)
    (h : c'.holding = some .shared) : WaitsFor c c' := by
  cases c' with
  | op o =>
    cases o <;> simp [SCall.holding, SCall.keeps, SCall.mode] at h
    cases c with
    | op o => cases o <;> simp [SCall.mode] at hm <;> simp [WaitsFor]
    | getMut k => simp [WaitsFor]
    | _ => simp [SCall.mode] at hm
  | get k =>
    cases c with
    | op o => cases o <;> simp [SCall.mode] at hm <;> simp [WaitsFor]
    | getMut k => simp [WaitsFor]
    | _ => simp [SCall.mode] at hm
  | _ => simp [SCall.holding, SCall.keeps, SCall.mode] at h

/-- A thread that holds the outer lock, in terms of the history. -/
private theorem user_of {C : Container K V} {s₀ : C.block.State} {n : Nat} {l : List (SEv K V)}
    {s : SState K V C.block.State} (h : SRun C (.new s₀ n) l s) {j : Nat} {p m}
    (hp : s.threads[j]? = some p) (hh : p.hold = some m) :
    ∃ c', c'.holding = some m ∧ ((InCall l j c' ∧ sstep C s j .go ≠ none) ∨ HasCell l j c' ∨ DiedIn l j c') := by
  have ha := h.after (new_after s₀ n) j p hp
  have hgo : (∀ m, p ≠ .cell m) → (∀ h, p ≠ .dead h) → p ≠ .idle → sstep C s j .go ≠ none := by
    intro h1 h2 h3 hn
    obtain ⟨c, rfl, -⟩ := blocked hp h1 h2 h3 hn
    simp [Pc.hold] at hh
  cases p with
  | idle => simp [Pc.hold] at hh
  | start c => simp [Pc.hold] at hh
  | closing c r => simp [Pc.hold] at hh
  | locked c => exact ⟨c, hh, .inl ⟨.inl ha, hgo (by simp) (by simp) (by simp)⟩⟩
  | inside c t => exact ⟨c, hh, .inl ⟨.inl ha, hgo (by simp) (by simp) (by simp)⟩⟩
  | leaving c r => exact ⟨c, hh, .inl ⟨.inr ⟨r, ha.1⟩, hgo (by simp) (by simp) (by simp)⟩⟩
  | cell m' =>
    obtain ⟨c, v, h1, h2⟩ := ha
    exact ⟨c, by rw [h2]; exact hh, .inr (.inl ⟨v, h1⟩)⟩
  | dead x =>
    obtain ⟨c, h1, h2 | h2⟩ := ha
    · subst h2; simp [Pc.hold] at hh
    · exact ⟨c, by rw [← h2]; exact hh, .inr (.inr h1)⟩

/-- **C112**, whom a call waits for.  In every reachable state, a call that cannot go on has not reached
the container, and another thread is in a call it waits for — and that one can go on —, holds a cell
obtained with such a call or panicked in such a call. -/
theorem C112_waits {C : Container K V} {s₀ : C.block.State} {n : Nat} {l : List (SEv K V)}
    {s : SState K V C.block.State} (h : SRun C (.new s₀ n) l s) {i : Nat} {c : SCall K V}
    (hc : InCall l i c) (hb : sstep C s i .go = none) :
    lastOf i l = some (.called i c) ∧ ∃ j c', j ≠ i ∧ WaitsFor c c' ∧
      ((InCall l j c' ∧ sstep C s j .go ≠ none) ∨ HasCell l j c' ∨ DiedIn l j c') := by
  have hinv := h.inv (new_inv s₀ n)
  obtain ⟨p, hp, h1, h2, h3, h4⟩ := inCall_pc h hc
  obtain ⟨c0, rfl, -, hw⟩ := blocked hp h1 h2 h3 hb
  obtain rfl := h4 c0 rfl
  refine ⟨h.after (new_after s₀ n) i _ hp, ?_⟩
  rcases hw with hw | ⟨hm, hr⟩
  · obtain ⟨j, q, hj, hq⟩ := hinv.writer hw
    obtain ⟨c', hc', hu⟩ := user_of h hj hq
    refine ⟨j, c', ?_, waitsFor_excl hc', hu⟩
    rintro rfl
    rw [hp] at hj; simp only [Option.some.injEq] at hj; subst hj; simp [Pc.hold] at hq
  · obtain ⟨j, q, hj, hq⟩ := hinv.readers hr
    obtain ⟨c', hc', hu⟩ := user_of h hj hq
    refine ⟨j, c', ?_, waitsFor_shared hm hc', hu⟩
    rintro rfl
    rw [hp] at hj; simp only [Option.some.injEq] at hj; subst hj; simp [Pc.hold] at hq

/-- **C112**, proved part: no deadlock among calls.  When no thread can go on in a call, a thread that
is still in a call waits for a cell that is held, or for a thread that panicked. -/
theorem C112_partial {C : Container K V} {s₀ : C.block.State} {n : Nat} {l : List (SEv K V)}
    {s : SState K V C.block.State} (h : SRun C (.new s₀ n) l s) (hst : Stuck C s)
    {i : Nat} {c : SCall K V} (hc : InCall l i c) :
    ∃ j c', j ≠ i ∧ WaitsFor c c' ∧ (HasCell l j c' ∨ DiedIn l j c') := by
  obtain ⟨-, j, c', hj, hw, h1 | h1⟩ := C112_waits h hc (hst i)
  · exact absurd (hst j) h1.2
  · exact ⟨j, c', hj, hw, h1⟩

/-- The threads of the list do, in this order, their next step of a call. -/
def goes (C : Container K V) : SState K V C.block.State → List Nat →
    Option (List (SEv K V) × SState K V C.block.State)
  | s, [] => some ([], s)
  | s, i :: is => match sstep C s i .go with
    | some (s', e) => (goes C s' is).map fun x => (e :: x.1, x.2)
    | none => none

theorem goes_left {C : Container K V} : ∀ (is : List Nat) (s : SState K V C.block.State) {l s'},
    goes C s is = some (l, s') →
    ∀ i, is.count i + ((s'.threads[i]?.map Pc.left).getD 0) ≤ (s.threads[i]?.map Pc.left).getD 0
  | [], s, l, s', h => by simp [goes] at h; intro i; rw [h.2]; simp
  | j :: is, s, l, s', h => by
    intro i
    simp only [goes] at h
    split at h
    · rename_i s1 e hs
      obtain ⟨⟨l1, s2⟩, h2, h3⟩ := Option.map_eq_some_iff.1 h
      simp only [Prod.mk.injEq] at h3
      obtain ⟨-, rfl⟩ := h3
      have ih := goes_left is s1 h2 i
      obtain ⟨p, q, hp, ht, hlt⟩ := go_left rfl hs
      rw [ht] at ih
      by_cases hij : j = i
      · subst hij
        have hlen := (List.getElem?_eq_some_iff.1 hp).1
        rw [List.getElem?_set_self hlen] at ih
        simp only [List.count_cons_self, hp, Option.map_some, Option.getD_some] at ih ⊢
        omega
      · rw [List.getElem?_set_ne hij] at ih
        rw [List.count_cons_of_ne hij]
        exact ih
    · simp at h

theorem goes_run {C : Container K V} {s₀ : SState K V C.block.State} : ∀ (is : List Nat)
    {s : SState K V C.block.State} {l l' s'},
    SRun C s₀ l s → goes C s is = some (l', s') → SRun C s₀ (l ++ l') s'
  | [], s, l, l', s', h, hg => by simp [goes] at hg; obtain ⟨rfl, rfl⟩ := hg; simpa using h
  | j :: is, s, l, l', s', h, hg => by
    simp only [goes] at hg
    split at hg
    · rename_i s1 e hs
      obtain ⟨⟨l1, s2⟩, h2, h3⟩ := Option.map_eq_some_iff.1 hg
      simp only [Prod.mk.injEq] at h3
      obtain ⟨rfl, rfl⟩ := h3
      have := goes_run is (h.snoc hs) h2
      simpa using this
    · simp at hg

/-- **C112**, calls are short: in whatever order the threads go on in their calls, each of them does at
most five steps. -/
theorem C112_short {C : Container K V} {s s' : SState K V C.block.State} {is : List Nat} {l}
    (h : goes C s is = some (l, s')) (i : Nat) : is.count i ≤ 5 := by
  have := goes_left is s h i
  have : (s.threads[i]?.map Pc.left).getD 0 ≤ 5 := by
    cases s.threads[i]? with
    | none => simp
    | some p => cases p <;> simp [Pc.left]
  omega

/-- **C112**, calls complete: from every reachable state, if the threads go on in their calls in whatever
order until none can, then all calls have returned, unless a thread holds a cell or panicked. -/
theorem C112_completes {C : Container K V} {s₀ : C.block.State} {n : Nat} {l l' : List (SEv K V)}
    {s s' : SState K V C.block.State} (h : SRun C (.new s₀ n) l s) {is : List Nat}
    (hg : goes C s is = some (l', s')) (hst : Stuck C s')
    (hcell : ∀ j c, ¬ HasCell (l ++ l') j c) (hdead : ∀ j c, ¬ DiedIn (l ++ l') j c) :
    ∀ i c, ¬ InCall (l ++ l') i c := by
  intro i c hc
  obtain ⟨j, c', -, -, h1 | h1⟩ := C112_partial (goes_run is h hg) hst hc
  · exact hcell j c' h1
  · exact hdead j c' h1

/-- **C112**, one thread: the `Sequential` of C108, used by one thread that holds `m` cells obtained with
`get`, never returns (written as a panic) from the calls that wait for `get`, and answers as the container
in all others; the cells it holds stay the same. -/
theorem C112_one_thread (C : Block K V) (c : C.State) (m : Nat) (o : Op K V) (k : K) :
    (0 < m → WaitsFor (.op o) (.get k) → (sequentialHeld C).observe (c, m) o = .panic) ∧
    (m = 0 ∨ ¬ WaitsFor (.op o) (.get k) →
      (C.observe c o = .panic → (sequentialHeld C).observe (c, m) o = .panic) ∧
      ∀ r c', C.observe c o = .ok (r, c') → (sequentialHeld C).observe (c, m) o = .ok (r, (c', m))) := by
  constructor
  · intro hm hw
    have hm' : m ≠ 0 := by omega
    cases o <;> simp [WaitsFor] at hw <;> simp [Block.observe, sequentialHeld, hm']
  · intro h
    cases o <;> simp only [WaitsFor, not_true_eq_false, or_false, not_false_eq_true, or_true] at h <;>
      (try subst h) <;> simp only [Block.observe, sequentialHeld]
    · cases C.contains c _ <;> simp
    · cases C.take c _ <;> simp
    · cases C.takeMultiple c _ <;> simp
    · cases C.pop c _ <;> simp
    · cases C.push c _ <;> simp
    · cases C.flush c <;> simp

/-! ## Concrete cases -/

/-- Two elements are stored; thread 1 obtains a cell with `get`, thread 0 wants to `push`. -/
def pushWaits : List (Nat × SAct Nat Nat) :=
  [(0, .call (.op (.push [(1, 7), (2, 8)]))), (0, .go), (0, .go), (0, .go), (0, .go), (0, .go),
   (1, .call (.get 1)), (1, .go), (1, .go), (1, .go), (1, .go), (0, .call (.op (.push [(3, 9)])))]

private theorem play_of {C : Container K V} {s₀ : C.block.State} {n : Nat} {as}
    {P : List (SEv K V) → SState K V C.block.State → Bool}
    (h : (play C (.new s₀ n) as).any (fun x => P x.1 x.2) = true) :
    ∃ l s, SRun C (.new s₀ n) l s ∧ P l s = true := by
  cases hp : play C (.new s₀ n) as with
  | none => rw [hp] at h; simp at h
  | some x =>
    rw [hp] at h
    have := play_run (.nil) hp
    exact ⟨x.1, x.2, by simpa using this, by simpa using h⟩

private def isEv : Option (SEv Nat Nat) → Nat → Bool
  | some (.called 0 (.op (.push [(3, 9)]))), 0 => true
  | some (.returned 1 (.get 1) (.cell (some 7))), 1 => true
  | some (.called 2 .size), 2 => true
  | some (.returned 2 .size (.num 2)), 3 => true
  | some (.returned 0 (.op (.push [(3, 9)])) _), 4 => true
  | some (.dropped 1), 5 => true
  | _, _ => false

private theorem isEv0 {o} (h : isEv o 0 = true) : o = some (.called 0 (.op (.push [(3, 9)]))) := by
  unfold isEv at h; split at h <;> simp_all
private theorem isEv1 {o} (h : isEv o 1 = true) : o = some (.returned 1 (.get 1) (.cell (some 7))) := by
  unfold isEv at h; split at h <;> simp_all
private theorem isEv2 {o} (h : isEv o 2 = true) : o = some (.called 2 .size) := by
  unfold isEv at h; split at h <;> simp_all
private theorem isEv3 {o} (h : isEv o 3 = true) : o = some (.returned 2 .size (.num 2)) := by
  unfold isEv at h; split at h <;> simp_all
private theorem isEv4 {o} (h : isEv o 4 = true) : ∃ r, o = some (.returned 0 (.op (.push [(3, 9)])) r) := by
  unfold isEv at h; split at h <;> simp_all
private theorem isEv5 {o} (h : isEv o 5 = true) : o = some (.dropped 1) := by
  unfold isEv at h; split at h <;> simp_all

private theorem stuck_of {C : Container K V} {s : SState K V C.block.State}
    (h : ∀ i < s.threads.length, (sstep C s i .go).isNone = true) : Stuck C s := by
  intro i
  by_cases hi : i < s.threads.length
  · simpa using h i hi
  · have : s.threads[i]? = none := by simpa using hi
    simp [sstep, this]

/-- While thread 1 holds a cell obtained with `get`, thread 0 waits in `push`; no thread panicked. -/
theorem C112_waits_witness : ∃ l s, SRun arr (.new (Array.new 2) 3) l s ∧
    InCall l 0 (.op (.push [(3, 9)])) ∧ Stuck arr s ∧ HasCell l 1 (.get 1) ∧
    (∀ i c, .panicked i c ∉ l) := by
  obtain ⟨l, s, hr, h⟩ := play_of (C := arr) (s₀ := Array.new 2) (n := 3) (as := pushWaits)
    (P := fun l s => isEv (lastOf 0 l) 0 && isEv (lastOf 1 l) 1 && !(l.any isPanic) &&
      decide (s.threads.length = 3) && (sstep arr s 0 .go).isNone && (sstep arr s 1 .go).isNone &&
      (sstep arr s 2 .go).isNone) (by decide +kernel)
  simp only [Bool.and_eq_true, Bool.not_eq_true', decide_eq_true_eq] at h
  obtain ⟨⟨⟨⟨⟨⟨h1, h2⟩, h3⟩, h4⟩, h5⟩, h6⟩, h7⟩ := h
  refine ⟨l, s, hr, .inl (isEv0 h1), stuck_of ?_, ⟨7, isEv1 h2⟩, ?_⟩
  · intro i hi
    rw [h4] at hi
    rcases i with _ | _ | _ | i
    · exact h5
    · exact h6
    · exact h7
    · omega
  · intro i c hm
    have : l.any isPanic = true := List.any_eq_true.2 ⟨_, hm, rfl⟩
    rw [h3] at this
    cases this

/-- The full statement is false: a cell that is not dropped makes `push` wait for ever. -/
theorem C112_false : ¬ C112_full := by
  intro h
  obtain ⟨l, s, hr, hc, hst, -, hp⟩ := C112_waits_witness
  exact h Nat Nat arr (Array.new 2) 3 l s arr_readOnly arr_neverPanics hr hp hst 0 _ hc

/-- In the same situation `size` does not wait. -/
theorem C112_size_witness : ∃ l s, SRun arr (.new (Array.new 2) 3) l s ∧
    InCall l 0 (.op (.push [(3, 9)])) ∧ HasCell l 1 (.get 1) ∧
    lastOf 2 l = some (.returned 2 .size (.num 2)) := by
  obtain ⟨l, s, hr, h⟩ := play_of (C := arr) (s₀ := Array.new 2) (n := 3)
    (as := pushWaits ++ [(2, .call .size), (2, .go), (2, .go), (2, .go), (2, .go), (2, .go)])
    (P := fun l s => isEv (lastOf 0 l) 0 && isEv (lastOf 1 l) 1 && isEv (lastOf 2 l) 3)
    (by decide +kernel)
  simp only [Bool.and_eq_true] at h
  exact ⟨l, s, hr, .inl (isEv0 h.1.1), ⟨7, isEv1 h.1.2⟩, isEv3 h.2⟩

/-- When the cell is dropped, the push and a call of `size` complete. -/
theorem C112_completes_witness : ∃ l s l' s', SRun arr (.new (Array.new 2) 3) l s ∧
    InCall l 0 (.op (.push [(3, 9)])) ∧ InCall l 2 .size ∧
    goes arr s [2, 2, 2, 2, 2, 0, 0, 0, 0, 0] = some (l', s') ∧ Stuck arr s' ∧
    (∀ j c, ¬ HasCell (l ++ l') j c) ∧ ∀ j c, ¬ DiedIn (l ++ l') j c := by
  obtain ⟨l, s, hr, h⟩ := play_of (C := arr) (s₀ := Array.new 2) (n := 3)
    (as := pushWaits ++ [(2, .call .size), (1, .dropCell)])
    (P := fun l s => isEv (lastOf 0 l) 0 && isEv (lastOf 2 l) 2 &&
      (goes arr s [2, 2, 2, 2, 2, 0, 0, 0, 0, 0]).any (fun x =>
        isEv (lastOf 0 (l ++ x.1)) 4 && isEv (lastOf 1 (l ++ x.1)) 5 && isEv (lastOf 2 (l ++ x.1)) 3 &&
        decide (x.2.threads.length = 3) && (sstep arr x.2 0 .go).isNone &&
        (sstep arr x.2 1 .go).isNone && (sstep arr x.2 2 .go).isNone &&
        (match lastOf 0 (l ++ x.1) with | some (.returned _ _ (.obs _)) => true | _ => false)))
    (by decide +kernel)
  simp only [Bool.and_eq_true] at h
  obtain ⟨⟨h1, h2⟩, h3⟩ := h
  cases hg : goes arr s [2, 2, 2, 2, 2, 0, 0, 0, 0, 0] with
  | none => rw [hg] at h3; simp at h3
  | some x =>
    rw [hg] at h3
    simp only [Option.any_some, Bool.and_eq_true, decide_eq_true_eq] at h3
    obtain ⟨⟨⟨⟨⟨⟨⟨a0, a1⟩, a2⟩, a3⟩, a4⟩, a5⟩, a6⟩, a7⟩ := h3
    obtain ⟨r, a0⟩ := isEv4 a0
    have a1 := isEv5 a1
    have a2 := isEv3 a2
    have hrun := goes_run _ hr hg
    have hlen : ∀ {j e}, lastOf j (l ++ x.1) = some e → j < 3 := by
      intro j e he
      obtain ⟨hm, rfl⟩ := lastOf_mem he
      have := hrun.thread_lt.2 e hm
      omega
    refine ⟨l, s, x.1, x.2, hr, .inl (isEv0 h1), .inl (isEv2 h2), hg, stuck_of ?_, ?_, ?_⟩
    · intro i hi
      rw [a3] at hi
      rcases i with _ | _ | _ | i
      · exact a4
      · exact a5
      · exact a6
      · omega
    · rintro j c ⟨v, hv⟩
      have := hlen hv
      rcases j with _ | _ | _ | j
      · rw [hv] at a7; simp at a7
      · rw [a1] at hv; simp at hv
      · rw [a2] at hv; simp at hv
      · omega
    · intro j c hv
      have := hlen hv
      unfold DiedIn at hv
      rcases j with _ | _ | _ | j
      · rw [a0] at hv; simp at hv
      · rw [a1] at hv; simp at hv
      · rw [a2] at hv; simp at hv
      · omega

/-- Threads 1 and 2 read in turns, so that at every moment one of them holds a cell. -/
def turns : List (Nat × SAct Nat Nat) :=
  [(2, .call (.get 1)), (2, .go), (2, .go), (2, .go), (2, .go), (1, .dropCell),
   (1, .call (.get 1)), (1, .go), (1, .go), (1, .go), (1, .go), (2, .dropCell)]

/-- At every moment of the schedule thread 0 cannot go on. -/
def alwaysBlocked (C : Container K V) (i : Nat) :
    SState K V C.block.State → List (Nat × SAct K V) → Bool
  | s, [] => (sstep C s i .go).isNone
  | s, (j, a) :: l => (sstep C s i .go).isNone && match sstep C s j a with
    | some (s', _) => alwaysBlocked C i s' l
    | none => false

theorem alwaysBlocked_append {C : Container K V} {i : Nat} {as bs : List (Nat × SAct K V)} :
    ∀ {s s' : SState K V C.block.State} {l}, alwaysBlocked C i s as = true →
    play C s as = some (l, s') → alwaysBlocked C i s' bs = true →
    alwaysBlocked C i s (as ++ bs) = true := by
  induction as with
  | nil => intro s s' l _ h2 h3; simp [play] at h2; rw [← h2.2] at h3; exact h3
  | cons x as ih =>
    intro s s' l h1 h2 h3
    obtain ⟨j, a⟩ := x
    simp only [alwaysBlocked, play, Bool.and_eq_true, List.cons_append] at h1 h2 ⊢
    refine ⟨h1.1, ?_⟩
    cases hs : sstep C s j a with
    | none => rw [hs] at h2; simp at h2
    | some y =>
      rw [hs] at h1 h2
      simp only at h1 h2 ⊢
      obtain ⟨⟨l1, s2⟩, h4, h5⟩ := Option.map_eq_some_iff.1 h2
      simp only [Prod.mk.injEq] at h5
      obtain ⟨-, rfl⟩ := h5
      exact ih h1.2 h4 h3

theorem play_append {C : Container K V} {as bs : List (Nat × SAct K V)} :
    ∀ {s s' s'' : SState K V C.block.State} {l l'}, play C s as = some (l, s') →
    play C s' bs = some (l', s'') → play C s (as ++ bs) = some (l ++ l', s'') := by
  induction as with
  | nil => intro s s' s'' l l' h1 h2; simp [play] at h1; obtain ⟨rfl, rfl⟩ := h1; exact h2
  | cons x as ih =>
    intro s s' s'' l l' h1 h2
    obtain ⟨j, a⟩ := x
    simp only [play, List.cons_append] at h1 ⊢
    cases hs : sstep C s j a with
    | none => rw [hs] at h1; simp at h1
    | some y =>
      rw [hs] at h1
      simp only at h1 ⊢
      obtain ⟨⟨l1, s2⟩, h4, h5⟩ := Option.map_eq_some_iff.1 h1
      simp only [Prod.mk.injEq] at h5
      obtain ⟨rfl, rfl⟩ := h5
      rw [ih h4 h2]
      rfl

/-- The cell that thread `i` drops. -/
def drops (i : Nat) : SEv K V → Bool
  | .dropped j => decide (i = j)
  | _ => false

private theorem starve {C : Container K V} {s : SState K V C.block.State} {as l}
    (hp : play C s as = some (l, s)) (hb : alwaysBlocked C 0 s as = true)
    (h1 : l.countP (drops 1) = 1) (h2 : l.countP (drops 2) = 1) :
    ∀ n, ∃ as' l', play C s as' = some (l', s) ∧ alwaysBlocked C 0 s as' = true ∧
      l'.countP (drops 1) = n ∧ l'.countP (drops 2) = n
  | 0 => by
    refine ⟨[], [], rfl, ?_, rfl, rfl⟩
    cases as with
    | nil => exact hb
    | cons x as => simp only [alwaysBlocked, Bool.and_eq_true] at hb ⊢; exact hb.1
  | n + 1 => by
    obtain ⟨as', l', a1, a2, a3, a4⟩ := starve hp hb h1 h2 n
    refine ⟨as ++ as', l ++ l', play_append hp a1, alwaysBlocked_append hb hp a2, ?_, ?_⟩
    · rw [List.countP_append, h1, a3]; omega
    · rw [List.countP_append, h2, a4]; omega

/-- **C112**, starvation: a fair scheduler does not help.  There are executions, as long as one likes,
in which threads 1 and 2 get and drop `n` cells each and thread 0 waits in `push` all along. -/
theorem C112_starves (n : Nat) : ∃ l s as l' s', SRun arr (.new (Array.new 2) 3) l s ∧
    InCall l 0 (.op (.push [(3, 9)])) ∧ play arr s as = some (l', s') ∧
    l'.countP (drops 1) = n ∧ l'.countP (drops 2) = n ∧ alwaysBlocked arr 0 s as = true := by
  have h0 : ∃ x, play arr (.new (Array.new 2) 3) pushWaits = some x ∧
      isEv (lastOf 0 x.1) 0 = true ∧ alwaysBlocked arr 0 x.2 turns = true ∧
      ∃ l, play arr x.2 turns = some (l, x.2) ∧ l.countP (drops 1) = 1 ∧ l.countP (drops 2) = 1 := by
    refine ⟨_, rfl, by decide +kernel, by decide +kernel, _, rfl, rfl, rfl⟩
  obtain ⟨x, hx, hc, hb, l, hp, h1, h2⟩ := h0
  obtain ⟨as', l', a1, a2, a3, a4⟩ := starve hp hb h1 h2 n
  exact ⟨x.1, x.2, as', l', x.2, by simpa using play_run (.nil) hx, .inl (isEv0 hc), a1, a3, a4, a2⟩

end Byoc.SeqWaitProps
