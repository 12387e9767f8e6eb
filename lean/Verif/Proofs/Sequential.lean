import Verif.Model.Sequential
import Verif.Proofs.Lock

/-! Invariants of `Sequential` shared by threads. -/

namespace Byoc.Seq

open Lock (Mode sum_set le_sum le_sum_two)

variable {K V S : Type}

/-- Holds the write guard of the inner lock. -/
def Pc.wi : Pc K V S → Nat
  | .inside c _ => if c.write then 1 else 0
  | .leaving c _ => if c.write then 1 else 0
  | .closing c _ => if c.write then 1 else 0
  | _ => 0

/-- Holds a read guard of the inner lock. -/
def Pc.ri : Pc K V S → Nat
  | .inside c _ => if c.write then 0 else 1
  | .leaving c _ => if c.write then 0 else 1
  | .closing c _ => if c.write then 0 else 1
  | _ => 0

/-- How the thread holds the outer lock. -/
def Pc.hold : Pc K V S → Option Mode
  | .locked c => c.holding
  | .inside c _ => c.holding
  | .leaving c _ => c.holding
  | .cell m => some m
  | .dead h => h
  | _ => none

def nS : Option Mode → Nat
  | some .shared => 1
  | _ => 0

def nX : Option Mode → Nat
  | some .excl => 1
  | _ => 0

@[simp] theorem nS_shared : nS (some .shared) = 1 := rfl
@[simp] theorem nS_excl : nS (some .excl) = 0 := rfl
@[simp] theorem nS_none : nS none = 0 := rfl
@[simp] theorem nX_shared : nX (some .shared) = 0 := rfl
@[simp] theorem nX_excl : nX (some .excl) = 1 := rfl
@[simp] theorem nX_none : nX none = 0 := rfl

def Pc.so (p : Pc K V S) : Nat := nS p.hold
def Pc.xo (p : Pc K V S) : Nat := nX p.hold

def b2n (b : Bool) : Nat := if b then 1 else 0

@[simp] theorem b2n_true : b2n true = 1 := rfl
@[simp] theorem b2n_false : b2n false = 0 := rfl

structure SInv (s : SState K V S) : Prop where
  wi : (s.threads.map Pc.wi).sum = b2n s.iWriter
  ri : (s.threads.map Pc.ri).sum = s.iReaders
  xi : s.iWriter = true → s.iReaders = 0
  xo : (s.threads.map Pc.xo).sum = b2n s.oWriter
  so : (s.threads.map Pc.so).sum = s.oReaders
  xx : s.oWriter = true → s.oReaders = 0
  snap : ∀ c t, Pc.inside c t ∈ s.threads → t = s.cont

theorem sum_rep {α : Type} (f : α → Nat) (a : α) (n : Nat) (h : f a = 0) :
    ((List.replicate n a).map f).sum = 0 := by
  simp [List.map_replicate, h]

theorem new_inv (c : S) (n : Nat) : SInv (SState.new (K := K) (V := V) c n) := by
  refine ⟨?_, ?_, ?_, ?_, ?_, ?_, ?_⟩ <;> simp [SState.new, Pc.wi, Pc.ri, Pc.so, Pc.xo, Pc.hold, b2n]

theorem mem_set_inside {l : List (Pc K V S)} {i : Nat} {p : Pc K V S} {c t}
    (h : Pc.inside c t ∈ l.set i p) : Pc.inside c t ∈ l ∨ Pc.inside c t = p :=
  List.mem_or_eq_of_mem_set h

theorem get_holding (k : K) : (SCall.get k : SCall K V).holding = some .shared := rfl
theorem getMut_holding (k : K) : (SCall.getMut k : SCall K V).holding = some .excl := rfl

theorem holding_cases (c : SCall K V) : c.holding = none ∨ c.holding = some c.mode := by
  unfold SCall.holding; split <;> simp

/-- A state change that sets thread `i` from `p` to `q`, in terms of the counters. -/
theorem SInv.change {s s' : SState K V S} {i : Nat} {p q : Pc K V S} (hi : SInv s)
    (hp : s.threads[i]? = some p) (ht : s'.threads = s.threads.set i q)
    (h1 : b2n s'.iWriter + p.wi = b2n s.iWriter + q.wi)
    (h2 : s'.iReaders + p.ri = s.iReaders + q.ri)
    (h3 : s'.iWriter = true → s'.iReaders = 0)
    (h4 : b2n s'.oWriter + p.xo = b2n s.oWriter + q.xo)
    (h5 : s'.oReaders + p.so = s.oReaders + q.so)
    (h6 : s'.oWriter = true → s'.oReaders = 0)
    (h7 : ∀ c t, Pc.inside c t ∈ s.threads.set i q → t = s'.cont) : SInv s' := by
  have a1 := sum_set Pc.wi s.threads i p q hp
  have a2 := sum_set Pc.ri s.threads i p q hp
  have a3 := sum_set Pc.xo s.threads i p q hp
  have a4 := sum_set Pc.so s.threads i p q hp
  have := hi.wi; have := hi.ri; have := hi.xo; have := hi.so
  constructor
  · rw [ht]; omega
  · rw [ht]; omega
  · exact h3
  · rw [ht]; omega
  · rw [ht]; omega
  · exact h6
  · rw [ht]; exact h7

/-- Others than a writer are not inside. -/
theorem SInv.alone {s : SState K V S} (hi : SInv s) {i : Nat} {p q : Pc K V S} {c t}
    (hp : s.threads[i]? = some p) (hw : p.wi = 1)
    (h : Pc.inside c t ∈ s.threads.set i q) : Pc.inside c t = q := by
  obtain ⟨j, hj, hjt⟩ := List.mem_iff_getElem.1 h
  by_cases hij : i = j
  · subst hij; simpa using hjt.symm
  · have hj' : s.threads[j]? = some (.inside c t) := by
      rw [← List.getElem?_set_ne hij (a := q), List.getElem?_eq_getElem hj, hjt]
    have h1 := le_sum_two Pc.wi s.threads i j _ _ hij hp hj'
    have h2 := hi.wi
    have h4 := le_sum Pc.ri s.threads _ (List.mem_of_getElem? hj')
    have h5 := hi.ri
    have h6 := hi.xi
    rw [hw] at h1
    cases hb : s.iWriter <;> simp only [hb, b2n_true, b2n_false] at h2 h6
    · omega
    · simp only [forall_const] at h6
      cases hc : c.write <;> simp [Pc.wi, Pc.ri, hc] at h1 h4 <;> omega

variable {C : Container K V}

theorem step_inv {s s' : SState K V C.block.State} {i a e} (hi : SInv s)
    (h : sstep C s i a = some (s', e)) : SInv s' := by
  have hsn := hi.snap
  have hle : ∀ p, s.threads[i]? = some p → p.wi ≤ b2n s.iWriter ∧ p.ri ≤ s.iReaders ∧
      p.xo ≤ b2n s.oWriter ∧ p.so ≤ s.oReaders := by
    intro p hp
    have hm := List.mem_of_getElem? hp
    exact ⟨hi.wi ▸ le_sum Pc.wi _ _ hm, hi.ri ▸ le_sum Pc.ri _ _ hm, hi.xo ▸ le_sum Pc.xo _ _ hm,
      hi.so ▸ le_sum Pc.so _ _ hm⟩
  have hkeep : ∀ (q : Pc K V C.block.State), (∀ c t, q ≠ .inside c t) →
      ∀ c t, Pc.inside c t ∈ s.threads.set i q → t = s.cont := by
    intro q hq c t hm
    rcases mem_set_inside hm with hm | hm
    · exact hsn c t hm
    · exact absurd hm.symm (hq c t)
  simp only [sstep] at h
  split at h
  · -- idle
    rename_i c hp
    simp only [Option.some.injEq, Prod.mk.injEq] at h
    obtain ⟨rfl, -⟩ := h
    refine hi.change hp rfl ?_ ?_ hi.xi ?_ ?_ hi.xx (hkeep _ (by simp)) <;>
      simp [SState.setPc, Pc.wi, Pc.ri, Pc.xo, Pc.so, Pc.hold]
  · -- start
    rename_i c hp
    have key : ∀ s1, (s1 = s ∧ False ∨ (s1 = (s.acquire c.holding).setPc i (.locked c)) ∧
        s.oWriter = false ∧ (c.mode = .excl → s.oReaders = 0)) → SInv s1 := by
      rintro s1 (⟨_, h⟩ | ⟨rfl, hw, hr⟩)
      · exact h.elim
      · rcases holding_cases c with hc | hc
        · rw [hc]
          refine hi.change hp rfl ?_ ?_ hi.xi ?_ ?_ hi.xx (hkeep _ (by simp)) <;>
            simp [SState.setPc, SState.acquire, Pc.wi, Pc.ri, Pc.xo, Pc.so, Pc.hold, hc]
        · cases hm : c.mode
          · rw [hm] at hc
            rw [hc]
            refine hi.change hp rfl ?_ ?_ hi.xi ?_ ?_ ?_ (hkeep _ (by simp)) <;>
              simp [SState.setPc, SState.acquire, Pc.wi, Pc.ri, Pc.xo, Pc.so, Pc.hold, hc, hw]
          · rw [hm] at hc
            rw [hc]
            refine hi.change hp rfl ?_ ?_ hi.xi ?_ ?_ ?_ (hkeep _ (by simp)) <;>
              simp [SState.setPc, SState.acquire, Pc.wi, Pc.ri, Pc.xo, Pc.so, Pc.hold, hc, hw, b2n,
                hr hm]
    split at h
    · split at h
      · simp only [Option.some.injEq, Prod.mk.injEq] at h
        obtain ⟨rfl, -⟩ := h
        refine hi.change hp rfl ?_ ?_ hi.xi ?_ ?_ hi.xx (hkeep _ (by simp)) <;>
          simp [SState.setPc, Pc.wi, Pc.ri, Pc.xo, Pc.so, Pc.hold]
      · simp only [Option.some.injEq, Prod.mk.injEq] at h
        obtain ⟨rfl, -⟩ := h
        refine hi.change hp rfl ?_ ?_ hi.xi ?_ ?_ hi.xx (hkeep _ (by simp)) <;>
          simp [SState.setPc, Pc.wi, Pc.ri, Pc.xo, Pc.so, Pc.hold]
    · split at h
      · rename_i hm
        split at h
        · simp at h
        · rename_i hw
          simp only [Option.some.injEq, Prod.mk.injEq] at h
          obtain ⟨rfl, -⟩ := h
          exact key _ (.inr ⟨rfl, by simpa using hw, by simp [hm]⟩)
      · split at h
        · simp at h
        · rename_i hw
          simp only [Option.some.injEq, Prod.mk.injEq] at h
          obtain ⟨rfl, -⟩ := h
          simp only [not_or, Bool.not_eq_true, ne_eq, Decidable.not_not] at hw
          exact key _ (.inr ⟨rfl, hw.1, fun _ => hw.2⟩)
  · -- locked
    rename_i c hp
    have kdead : SInv (s.setPc i (.dead c.holding)) := by
      refine hi.change hp rfl ?_ ?_ hi.xi ?_ ?_ hi.xx (hkeep _ (by simp)) <;>
        simp [SState.setPc, Pc.wi, Pc.ri, Pc.xo, Pc.so, Pc.hold]
    have hin : ∀ c' t, Pc.inside c' t ∈ s.threads.set i (.inside c s.cont) → t = s.cont := by
      intro c' t hm
      rcases mem_set_inside hm with hm | hm
      · exact hsn c' t hm
      · injection hm
    split at h
    · simp only [Option.some.injEq, Prod.mk.injEq] at h
      obtain ⟨rfl, -⟩ := h; exact kdead
    · split at h
      · rename_i hwr
        split at h
        · simp only [Option.some.injEq, Prod.mk.injEq] at h
          obtain ⟨rfl, -⟩ := h; exact kdead
        · rename_i hw
          simp only [not_or, Bool.not_eq_true, ne_eq, Decidable.not_not] at hw
          simp only [Option.some.injEq, Prod.mk.injEq] at h
          obtain ⟨rfl, -⟩ := h
          refine hi.change hp rfl ?_ ?_ ?_ ?_ ?_ hi.xx hin <;>
            simp [SState.setPc, Pc.wi, Pc.ri, Pc.xo, Pc.so, Pc.hold, hw, hwr, b2n]
      · rename_i hwr
        split at h
        · simp only [Option.some.injEq, Prod.mk.injEq] at h
          obtain ⟨rfl, -⟩ := h; exact kdead
        · rename_i hw
          simp only [Option.some.injEq, Prod.mk.injEq] at h
          obtain ⟨rfl, -⟩ := h
          refine hi.change hp rfl ?_ ?_ ?_ ?_ ?_ hi.xx hin <;>
            simp [SState.setPc, Pc.wi, Pc.ri, Pc.xo, Pc.so, Pc.hold, hw, hwr]
  · -- inside
    rename_i c snap hp
    have hl := hle _ hp
    split at h
    · simp only [Option.some.injEq, Prod.mk.injEq] at h
      obtain ⟨rfl, -⟩ := h
      have hxi := hi.xi
      cases hwr : c.write
      · simp only [Pc.wi, Pc.ri, hwr] at hl
        have hr : 1 ≤ s.iReaders := by simpa using hl.2.1
        refine hi.change (q := .dead c.holding) hp (by simp [SState.setPc, SState.dropGuard]) ?_ ?_ ?_ ?_ ?_ ?_ (hkeep _ (by simp)) <;>
          simp [SState.setPc, SState.dropGuard, Pc.wi, Pc.ri, Pc.xo, Pc.so, Pc.hold, hwr, b2n]
        · omega
        · intro hb; have := hxi hb; omega
        · exact hi.xx
      · simp only [Pc.wi, Pc.ri, hwr] at hl
        have hb : s.iWriter = true := by
          have := hl.1; cases hb : s.iWriter <;> simp [hb, b2n] at this ⊢
        refine hi.change (q := .dead c.holding) hp (by simp [SState.setPc, SState.dropGuard]) ?_ ?_ ?_ ?_ ?_ ?_ (hkeep _ (by simp)) <;>
          simp [SState.setPc, SState.dropGuard, Pc.wi, Pc.ri, Pc.xo, Pc.so, Pc.hold, hwr, b2n, hb]
        exact hi.xx
    · simp only [Option.some.injEq, Prod.mk.injEq] at h
      obtain ⟨rfl, -⟩ := h
      refine hi.change (q := .leaving c _) hp rfl ?_ ?_ ?_ ?_ ?_ ?_ ?_ <;> 
        try simp [SState.setPc, Pc.wi, Pc.ri, Pc.xo, Pc.so, Pc.hold]
      · exact hi.xi
      · exact hi.xx
      · intro c' t hm
        cases hwr : c.write
        · simpa using hkeep _ (by simp) c' t hm
        · have := hi.alone (c := c') (t := t) hp (by simp [Pc.wi, hwr]) hm
          cases this
  · -- leaving
    rename_i c r hp
    have hl := hle _ hp
    have hxi := hi.xi
    have hxx := hi.xx
    have kcell : ∀ m, c.holding = some m → SInv ((s.dropGuard c.write).setPc i (.cell m)) := by
      intro m hm
      cases hwr : c.write
      · simp only [Pc.wi, Pc.ri, hwr] at hl
        have hr : 1 ≤ s.iReaders := by simpa using hl.2.1
        refine hi.change (q := .cell m) hp (by simp [SState.setPc, SState.dropGuard]) ?_ ?_ ?_ ?_ ?_ ?_ (hkeep _ (by simp)) <;>
          simp [SState.setPc, SState.dropGuard, Pc.wi, Pc.ri, Pc.xo, Pc.so, Pc.hold, hwr, b2n, hm]
        · omega
        · intro hb; have := hxi hb; omega
        · exact hi.xx
      · simp only [Pc.wi, Pc.ri, hwr] at hl
        have hb : s.iWriter = true := by
          have := hl.1; cases hb : s.iWriter <;> simp [hb, b2n] at this ⊢
        refine hi.change (q := .cell m) hp (by simp [SState.setPc, SState.dropGuard]) ?_ ?_ ?_ ?_ ?_ ?_ (hkeep _ (by simp)) <;>
          simp [SState.setPc, SState.dropGuard, Pc.wi, Pc.ri, Pc.xo, Pc.so, Pc.hold, hwr, b2n, hb, hm]
        exact hi.xx
    have kclose : ∀ r', SInv ((s.release c.holding).setPc i (.closing c r')) := by
      intro r'
      rcases hm : c.holding with _ | m
      · refine hi.change hp rfl ?_ ?_ hi.xi ?_ ?_ hi.xx (hkeep _ (by simp)) <;>
          simp [SState.setPc, SState.release, Pc.wi, Pc.ri, Pc.xo, Pc.so, Pc.hold, hm]
      · cases m
        · simp only [Pc.so, Pc.hold, hm] at hl
          have hr : 1 ≤ s.oReaders := by simpa using hl.2.2.2
          refine hi.change hp rfl ?_ ?_ hi.xi ?_ ?_ ?_ (hkeep _ (by simp)) <;>
            simp [SState.setPc, SState.release, Pc.wi, Pc.ri, Pc.xo, Pc.so, Pc.hold, hm]
          · omega
          · intro hb; have := hxx hb; omega
        · simp only [Pc.xo, Pc.hold, hm] at hl
          have hb : s.oWriter = true := by
            have := hl.2.2.1; cases hb : s.oWriter <;> simp [hb, b2n] at this ⊢
          refine hi.change hp rfl ?_ ?_ hi.xi ?_ ?_ ?_ (hkeep _ (by simp)) <;>
            simp [SState.setPc, SState.release, Pc.wi, Pc.ri, Pc.xo, Pc.so, Pc.hold, hm, hb]
    split at h
    · simp only [Option.some.injEq, Prod.mk.injEq] at h
      obtain ⟨rfl, -⟩ := h
      exact kcell _ rfl
    · simp only [Option.some.injEq, Prod.mk.injEq] at h
      obtain ⟨rfl, -⟩ := h
      exact kcell _ rfl
    · simp only [Option.some.injEq, Prod.mk.injEq] at h
      obtain ⟨rfl, -⟩ := h
      exact kclose _
  · -- closing
    rename_i c r hp
    have hl := hle _ hp
    have hxi := hi.xi
    simp only [Option.some.injEq, Prod.mk.injEq] at h
    obtain ⟨rfl, -⟩ := h
    cases hwr : c.write
    · simp only [Pc.wi, Pc.ri, hwr] at hl
      have hr : 1 ≤ s.iReaders := by simpa using hl.2.1
      refine hi.change (q := .idle) hp (by simp [SState.setPc, SState.dropGuard]) ?_ ?_ ?_ ?_ ?_ ?_ (hkeep _ (by simp)) <;>
        simp [SState.setPc, SState.dropGuard, Pc.wi, Pc.ri, Pc.xo, Pc.so, Pc.hold, hwr, b2n]
      · omega
      · intro hb; have := hxi hb; omega
      · exact hi.xx
    · simp only [Pc.wi, Pc.ri, hwr] at hl
      have hb : s.iWriter = true := by
        have := hl.1; cases hb : s.iWriter <;> simp [hb, b2n] at this ⊢
      refine hi.change (q := .idle) hp (by simp [SState.setPc, SState.dropGuard]) ?_ ?_ ?_ ?_ ?_ ?_ (hkeep _ (by simp)) <;>
        simp [SState.setPc, SState.dropGuard, Pc.wi, Pc.ri, Pc.xo, Pc.so, Pc.hold, hwr, b2n, hb]
      exact hi.xx
  · -- cell
    rename_i m hp
    have hl := hle _ hp
    have hxx := hi.xx
    simp only [Option.some.injEq, Prod.mk.injEq] at h
    obtain ⟨rfl, -⟩ := h
    cases m
    · simp only [Pc.so, Pc.hold] at hl
      have hr : 1 ≤ s.oReaders := by simpa using hl.2.2.2
      refine hi.change hp rfl ?_ ?_ hi.xi ?_ ?_ ?_ (hkeep _ (by simp)) <;>
        simp [SState.setPc, SState.release, Pc.wi, Pc.ri, Pc.xo, Pc.so, Pc.hold]
      · omega
      · intro hb; have := hxx hb; omega
    · simp only [Pc.xo, Pc.hold] at hl
      have hb : s.oWriter = true := by
        have := hl.2.2.1; cases hb : s.oWriter <;> simp [hb, b2n] at this ⊢
      refine hi.change hp rfl ?_ ?_ hi.xi ?_ ?_ ?_ (hkeep _ (by simp)) <;>
        simp [SState.setPc, SState.release, Pc.wi, Pc.ri, Pc.xo, Pc.so, Pc.hold, hb]
  · -- dead
    rename_i m hp
    simp only [Option.some.injEq, Prod.mk.injEq] at h
    obtain ⟨rfl, -⟩ := h
    refine hi.change hp rfl ?_ ?_ hi.xi ?_ ?_ hi.xx (hkeep _ (by simp)) <;>
      simp [SState.setPc, Pc.wi, Pc.ri, Pc.xo, Pc.so, Pc.hold]
  · simp at h

theorem SRun.inv {s₀ s : SState K V C.block.State} {l} (h : SRun C s₀ l s) (h0 : SInv s₀) :
    SInv s := by
  induction h with
  | nil => exact h0
  | snoc _ hs ih => exact step_inv ih hs

/-! ## The order of execution -/

/-- The calls executed, in order, with their results. -/
def executedIn : List (SEv K V) → List (SCall K V × SObs K V)
  | [] => []
  | .executed _ c r :: l => (c, r) :: executedIn l
  | _ :: l => executedIn l

theorem executedIn_append (l l' : List (SEv K V)) :
    executedIn (l ++ l') = executedIn l ++ executedIn l' := by
  induction l with
  | nil => rfl
  | cons e l ih => cases e <;> simp [executedIn, ih]

/-- Perform calls one after the other. -/
def Container.runs (C : Container K V) (s : C.block.State) :
    List (SCall K V) → Res (List (SObs K V) × C.block.State)
  | [] => .ok ([], s)
  | c :: cs => do
    let (r, s') ← C.exec c s
    let (rs, s'') ← C.runs s' cs
    pure (r :: rs, s'')

theorem runs_snoc {s s1 s2 : C.block.State} {cs rs c r} (h : C.runs s cs = .ok (rs, s1))
    (h2 : C.exec c s1 = .ok (r, s2)) : C.runs s (cs ++ [c]) = .ok (rs ++ [r], s2) := by
  induction cs generalizing s rs with
  | nil =>
    simp only [Container.runs, Res.ok.injEq, Prod.mk.injEq] at h
    obtain ⟨rfl, rfl⟩ := h
    simp [Container.runs, h2]
  | cons c' cs ih =>
    simp only [Container.runs, List.cons_append] at h ⊢
    cases he : C.exec c' s with
    | panic => rw [he] at h; simp at h
    | ok x =>
      obtain ⟨r', s'⟩ := x
      rw [he] at h
      simp only [Res.ok_bind] at h ⊢
      cases hr : C.runs s' cs with
      | panic => rw [hr] at h; simp at h
      | ok y =>
        obtain ⟨rs', s''⟩ := y
        rw [hr] at h
        simp only [Res.ok_bind, Res.pure_eq, Res.ok.injEq, Prod.mk.injEq] at h
        obtain ⟨rfl, rfl⟩ := h
        rw [ih hr]
        simp

/-- `&self` methods do not change the container. -/
def Container.ReadOnly (C : Container K V) : Prop :=
  ∀ c s r t, c.write = false → C.exec c s = .ok (r, t) → t = s

@[simp] theorem acquire_oPoison (s : SState K V S) (h) : (s.acquire h).oPoison = s.oPoison := by
  rcases h with _ | m
  · rfl
  · cases m <;> rfl

@[simp] theorem release_oPoison (s : SState K V S) (h) : (s.release h).oPoison = s.oPoison := by
  rcases h with _ | m
  · rfl
  · cases m <;> rfl

@[simp] theorem dropGuard_oPoison (s : SState K V S) (b) : (s.dropGuard b).oPoison = s.oPoison := by
  cases b <;> rfl

@[simp] theorem acquire_iPoison (s : SState K V S) (h) : (s.acquire h).iPoison = s.iPoison := by
  rcases h with _ | m
  · rfl
  · cases m <;> rfl

@[simp] theorem release_iPoison (s : SState K V S) (h) : (s.release h).iPoison = s.iPoison := by
  rcases h with _ | m
  · rfl
  · cases m <;> rfl

@[simp] theorem dropGuard_iPoison (s : SState K V S) (b) : (s.dropGuard b).iPoison = s.iPoison := by
  cases b <;> rfl

@[simp] theorem acquire_threads (s : SState K V S) (h) : (s.acquire h).threads = s.threads := by
  rcases h with _ | m
  · rfl
  · cases m <;> rfl

@[simp] theorem release_threads (s : SState K V S) (h) : (s.release h).threads = s.threads := by
  rcases h with _ | m
  · rfl
  · cases m <;> rfl

@[simp] theorem dropGuard_threads (s : SState K V S) (b) : (s.dropGuard b).threads = s.threads := by
  cases b <;> rfl

@[simp] theorem acquire_cont (s : SState K V S) (h) : (s.acquire h).cont = s.cont := by
  rcases h with _ | m
  · rfl
  · cases m <;> rfl

@[simp] theorem release_cont (s : SState K V S) (h) : (s.release h).cont = s.cont := by
  rcases h with _ | m
  · rfl
  · cases m <;> rfl

@[simp] theorem dropGuard_cont (s : SState K V S) (b) : (s.dropGuard b).cont = s.cont := by
  cases b <;> rfl

theorem step_cont {s s' : SState K V C.block.State} {i a e} (hi : SInv s) (hro : C.ReadOnly)
    (h : sstep C s i a = some (s', e)) :
    (executedIn [e] = [] ∧ s'.cont = s.cont) ∨
    ∃ c r, executedIn [e] = [(c, r)] ∧ C.exec c s.cont = .ok (r, s'.cont) := by
  simp only [sstep] at h
  split at h
  case h_4 c snap hp =>
    split at h
    · simp only [Option.some.injEq, Prod.mk.injEq] at h
      obtain ⟨rfl, rfl⟩ := h
      left; simp [executedIn, SState.setPc]
    · rename_i r t he
      simp only [Option.some.injEq, Prod.mk.injEq] at h
      obtain ⟨rfl, rfl⟩ := h
      right
      refine ⟨c, r, rfl, ?_⟩
      have := hi.snap c snap (List.mem_of_getElem? hp)
      subst this
      rw [he]
      simp only [SState.setPc]
      split
      · rfl
      · rename_i hw
        rw [hro c s.cont r t (by simpa using hw) he]
  all_goals repeat' split at h
  all_goals simp only [Option.some.injEq, Prod.mk.injEq, reduceCtorEq] at h
  all_goals obtain ⟨rfl, rfl⟩ := h
  all_goals left
  all_goals simp [executedIn, SState.setPc]

theorem SRun.replay {s₀ s : SState K V C.block.State} {l} (h : SRun C s₀ l s) (h0 : SInv s₀)
    (hro : C.ReadOnly) : C.runs s₀.cont ((executedIn l).map Prod.fst) =
      .ok ((executedIn l).map Prod.snd, s.cont) := by
  induction h with
  | nil => rfl
  | snoc hr hs ih =>
    rw [executedIn_append]
    rcases step_cont (hr.inv h0) hro hs with ⟨h1, h2⟩ | ⟨c, r, h1, h2⟩
    · rw [h1, h2]; simpa using ih
    · rw [h1]
      simpa using runs_snoc ih h2

/-! ## Threads and events -/

def SEv.thread : SEv K V → Nat
  | .called i _ | .silent i | .executed i _ _ | .returned i _ _ | .skipped i _ _ | .panicked i _
  | .dropped i => i

/-- Thread `i` does nothing but pass locks. -/
def Quiet (i : Nat) (l : List (SEv K V)) : Prop := ∀ e ∈ l, e.thread = i → e = .silent i

theorem Quiet.nil (i : Nat) : Quiet i ([] : List (SEv K V)) := by intro e he; simp at he

theorem Quiet.snoc {i : Nat} {l : List (SEv K V)} {e} (h : Quiet i l)
    (he : e.thread = i → e = .silent i) : Quiet i (l ++ [e]) := by
  intro x hx
  rcases List.mem_append.1 hx with hx | hx
  · exact h x hx
  · simp at hx; subst hx; exact he

/-- `called i c`, then nothing from thread `i`. -/
def Calling (l : List (SEv K V)) (i : Nat) (c : SCall K V) : Prop :=
  ∃ a b, l = a ++ .called i c :: b ∧ Quiet i b

/-- `called i c`, then `executed i c r`, and nothing else from thread `i` since. -/
def Executed (l : List (SEv K V)) (i : Nat) (c : SCall K V) (r : SObs K V) : Prop :=
  ∃ a b d, l = a ++ .called i c :: b ++ .executed i c r :: d ∧ Quiet i b ∧ Quiet i d

theorem Calling.snoc {l : List (SEv K V)} {i c e} (h : Calling l i c)
    (he : e.thread = i → e = .silent i) : Calling (l ++ [e]) i c := by
  obtain ⟨a, b, rfl, hb⟩ := h
  exact ⟨a, b ++ [e], by simp, hb.snoc he⟩

theorem Executed.snoc {l : List (SEv K V)} {i c r e} (h : Executed l i c r)
    (he : e.thread = i → e = .silent i) : Executed (l ++ [e]) i c r := by
  obtain ⟨a, b, d, rfl, hb, hd⟩ := h
  exact ⟨a, b, d ++ [e], by simp, hb, hd.snoc he⟩

theorem Calling.exec {l : List (SEv K V)} {i c} (r) (h : Calling l i c) :
    Executed (l ++ [.executed i c r]) i c r := by
  obtain ⟨a, b, rfl, hb⟩ := h
  exact ⟨a, b, [], by simp, hb, .nil i⟩

/-- What the events say about thread `i`. -/
def Pc.Says (l : List (SEv K V)) (i : Nat) : Pc K V S → Prop
  | .start c => Calling l i c
  | .locked c => Calling l i c
  | .inside c _ => Calling l i c
  | .leaving c r => Executed l i c r
  | .closing c r => Executed l i c r
  | _ => True

theorem Pc.Says.snoc {l : List (SEv K V)} {i : Nat} {p : Pc K V S} {e} (h : p.Says l i)
    (he : e.thread = i → e = .silent i) : p.Says (l ++ [e]) i := by
  cases p with
  | start c => exact Calling.snoc h he
  | locked c => exact Calling.snoc h he
  | inside c _ => exact Calling.snoc h he
  | leaving c r => exact Executed.snoc h he
  | closing c r => exact Executed.snoc h he
  | idle => trivial
  | cell _ => trivial
  | dead _ => trivial

theorem step_says {s s' : SState K V C.block.State} {i a e} {l : List (SEv K V)}
    (hs : ∀ (j : Nat) (p : Pc K V C.block.State), s.threads[j]? = some p → p.Says l j)
    (h : sstep C s i a = some (s', e)) :
    e.thread = i ∧ ∃ p q, s.threads[i]? = some p ∧ s'.threads = s.threads.set i q ∧
      q.Says (l ++ [e]) i ∧
      (∀ c r, e = .returned i c r → Executed l i c r) ∧
      (∀ c r, e = .executed i c r → Calling l i c) ∧
      (∀ c r, e = .skipped i c r → Calling l i c) ∧ (∀ c, e = .panicked i c → Calling l i c) := by
  have kc : ∀ c, Calling l i c → Calling (l ++ [.silent i]) i c := fun c h => h.snoc (fun _ => rfl)
  have ke : ∀ c r, Executed l i c r → Executed (l ++ [.silent i]) i c r :=
    fun c r h => h.snoc (fun _ => rfl)
  have kn : ∀ c, Calling (l ++ [.called i c]) i c := fun c => ⟨l, [], rfl, .nil i⟩
  have kx : ∀ c r, Calling l i c → Executed (l ++ [.executed i c r]) i c r := fun c r h => h.exec r
  simp only [sstep] at h
  split at h
  all_goals (try (simp at h; done))
  all_goals rename_i hp
  all_goals (have hh := hs i _ hp)
  all_goals repeat' split at h
  all_goals simp only [Option.some.injEq, Prod.mk.injEq, reduceCtorEq] at h
  all_goals obtain ⟨rfl, rfl⟩ := h
  all_goals refine ⟨rfl, _, _, hp, by simp only [SState.setPc, acquire_threads, release_threads, dropGuard_threads]; rfl, ?_, ?_, ?_, ?_, ?_⟩
  all_goals simp only [Pc.Says] at hh ⊢
  all_goals try (intros; simp_all; done)

theorem SRun.says {s₀ s : SState K V C.block.State} {l} (h : SRun C s₀ l s)
    (h0 : ∀ (j : Nat) (p : Pc K V C.block.State), s₀.threads[j]? = some p → p.Says [] j) :
    ∀ (j : Nat) (p : Pc K V C.block.State), s.threads[j]? = some p → p.Says l j := by
  induction h with
  | nil => exact h0
  | snoc hr hs ih =>
    rename_i l s s' i a e
    obtain ⟨rfl, p, q, hp, ht, hq, -⟩ := step_says ih hs
    intro j u hj
    rw [ht, List.getElem?_set] at hj
    split at hj
    · rename_i hij
      subst hij
      split at hj
      · simp only [Option.some.injEq] at hj; subst hj; exact hq
      · simp at hj
    · rename_i hij
      exact (ih j u hj).snoc (fun h => absurd h hij)

/-- Every event, looked at in its past. -/
theorem SRun.event {s₀ s : SState K V C.block.State} {l} (h : SRun C s₀ l s)
    (h0 : ∀ (j : Nat) (p : Pc K V C.block.State), s₀.threads[j]? = some p → p.Says [] j) :
    ∀ l1 e l2, l = l1 ++ e :: l2 →
      (∀ i c r, e = .returned i c r → Executed l1 i c r) ∧
      (∀ i c r, e = .executed i c r → Calling l1 i c) ∧
      (∀ i c r, e = .skipped i c r → Calling l1 i c) ∧
      (∀ i c, e = .panicked i c → Calling l1 i c) := by
  induction h with
  | nil => intro l1 e l2 h; simp at h
  | snoc hr hs ih =>
    rename_i l s s' i a e
    intro l1 e' l2 hl
    rcases List.eq_nil_or_concat l2 with rfl | ⟨l3, x, rfl⟩
    · have := List.append_inj' hl rfl
      obtain ⟨rfl, h2⟩ := this
      simp only [List.cons.injEq, and_true] at h2
      subst h2
      obtain ⟨hi, -, -, -, -, -, h1, h2, h3, h4⟩ := step_says (hr.says h0) hs
      refine ⟨?_, ?_, ?_, ?_⟩
      · rintro j c r rfl; simp only [SEv.thread] at hi; subst hi; exact h1 c r rfl
      · rintro j c r rfl; simp only [SEv.thread] at hi; subst hi; exact h2 c r rfl
      · rintro j c r rfl; simp only [SEv.thread] at hi; subst hi; exact h3 c r rfl
      · rintro j c rfl; simp only [SEv.thread] at hi; subst hi; exact h4 c rfl
    · have hl' : l ++ [e] = (l1 ++ e' :: l3) ++ [x] := by simpa using hl
      obtain ⟨rfl, -⟩ := List.append_inj' hl' rfl
      exact ih l1 e' l3 rfl

theorem new_says (c : S) (n : Nat) :
    ∀ (j : Nat) (p : Pc K V S), (SState.new (K := K) (V := V) c n).threads[j]? = some p → p.Says [] j := by
  intro j p hp
  simp only [SState.new, List.getElem?_replicate] at hp
  split at hp
  · simp at hp; subst hp; trivial
  · simp at hp

/-! ## Panics -/

theorem step_poison {s s' : SState K V C.block.State} {i a e}
    (h : sstep C s i a = some (s', e)) :
    s'.oPoison = true ∨ s'.iPoison = true ∨ (∃ h, Pc.dead h ∈ s'.threads) →
    (s.oPoison = true ∨ s.iPoison = true ∨ (∃ h, Pc.dead h ∈ s.threads)) ∨
      ∃ c, e = .panicked i c := by
  have hset : ∀ (q : Pc K V C.block.State), (∀ m, Pc.dead m ≠ q) → (∃ h, Pc.dead h ∈ s.threads.set i q) →
      ∃ h, Pc.dead h ∈ s.threads := by
    rintro q hq ⟨m, hm⟩
    rcases List.mem_or_eq_of_mem_set hm with hm | hm
    · exact ⟨m, hm⟩
    · exact absurd hm (hq m)
  simp only [sstep] at h
  split at h
  all_goals (try (simp at h; done))
  case h_8 hp => intro _; exact .inl (.inr (.inr ⟨_, List.mem_of_getElem? hp⟩))
  all_goals repeat' split at h
  all_goals simp only [Option.some.injEq, Prod.mk.injEq, reduceCtorEq] at h
  all_goals obtain ⟨rfl, rfl⟩ := h
  all_goals try (intro _; exact .inr ⟨_, rfl⟩)
  all_goals intro h
  all_goals left
  all_goals simp only [SState.setPc, acquire_threads, release_threads, dropGuard_threads, acquire_oPoison,
    acquire_iPoison, release_oPoison, release_iPoison, dropGuard_oPoison, dropGuard_iPoison] at h
  all_goals exact h.imp id (Or.imp id (hset _ (by simp)))

theorem SRun.poison {s₀ s : SState K V C.block.State} {l} (h : SRun C s₀ l s)
    (h0 : ¬ (s₀.oPoison = true ∨ s₀.iPoison = true ∨ (∃ h, Pc.dead h ∈ s₀.threads))) :
    s.oPoison = true ∨ s.iPoison = true ∨ (∃ h, Pc.dead h ∈ s.threads) →
      ∃ j c, .panicked j c ∈ l := by
  induction h with
  | nil => intro h; exact absurd h h0
  | snoc hr hs ih =>
    rename_i l s s' i a e
    intro h
    rcases step_poison hs h with h | ⟨c, rfl⟩
    · obtain ⟨j, c, hj⟩ := ih h
      exact ⟨j, c, List.mem_append_left _ hj⟩
    · exact ⟨i, c, by simp⟩

/-- Holding a guard of the inner lock. -/
def Pc.Busy : Pc K V S → Prop
  | .inside _ _ => True
  | .leaving _ _ => True
  | .closing _ _ => True
  | _ => False

theorem sum_pos {α : Type} (f : α → Nat) : ∀ (l : List α), 0 < (l.map f).sum →
    ∃ (i : Nat) (t : α), l[i]? = some t ∧ 0 < f t
  | [], h => by simp at h
  | a :: l, h => by
    by_cases ha : 0 < f a
    · exact ⟨0, a, by simp, ha⟩
    · obtain ⟨i, t, h1, h2⟩ := sum_pos f l (by simp at h; omega)
      exact ⟨i + 1, t, by simpa using h1, h2⟩

theorem SInv.busy {s : SState K V S} (hi : SInv s) (h : s.iWriter = true ∨ s.iReaders ≠ 0) :
    ∃ (j : Nat) (p : Pc K V S), s.threads[j]? = some p ∧ p.Busy := by
  have : 0 < (s.threads.map Pc.wi).sum ∨ 0 < (s.threads.map Pc.ri).sum := by
    rcases h with h | h
    · left; rw [hi.wi, h]; simp
    · right; rw [hi.ri]; omega
  rcases this with h | h
  · obtain ⟨j, p, hj, hp⟩ := sum_pos _ _ h
    refine ⟨j, p, hj, ?_⟩
    cases p <;> simp [Pc.wi] at hp <;> trivial
  · obtain ⟨j, p, hj, hp⟩ := sum_pos _ _ h
    refine ⟨j, p, hj, ?_⟩
    cases p <;> simp [Pc.ri] at hp <;> trivial

/-- Why a call panics. -/
theorem step_panics {s s' : SState K V C.block.State} {i a c j} (hi : SInv s)
    (h : sstep C s i a = some (s', .panicked j c)) :
    s.oPoison = true ∨ s.iPoison = true ∨ C.exec c s.cont = .panic ∨
      ∃ (j : Nat) (p : Pc K V C.block.State), j ≠ i ∧ s.threads[j]? = some p ∧ p.Busy := by
  have hb : ∀ c', s.threads[i]? = some (.locked c') → s.iWriter = true ∨ s.iReaders ≠ 0 →
      ∃ (j : Nat) (p : Pc K V C.block.State), j ≠ i ∧ s.threads[j]? = some p ∧ p.Busy := by
    intro c' hp hh
    obtain ⟨j, p, hj, hpb⟩ := hi.busy hh
    refine ⟨j, p, ?_, hj, hpb⟩
    rintro rfl
    rw [hp] at hj
    simp only [Option.some.injEq] at hj
    subst hj
    exact hpb
  simp only [sstep] at h
  split at h
  all_goals repeat' split at h
  all_goals simp only [Option.some.injEq, Prod.mk.injEq, reduceCtorEq, and_false, SEv.panicked.injEq] at h
  · exact .inl (by assumption)
  · exact .inr (.inl (by assumption))
  · exact .inr (.inr (.inr (hb _ (by assumption) (by assumption))))
  · exact .inr (.inr (.inr (hb _ (by assumption) (.inl (by assumption)))))
  · rename_i hp _ he
    obtain ⟨-, -, rfl⟩ := h
    rw [hi.snap _ _ (List.mem_of_getElem? hp)] at he
    exact .inr (.inr (.inl he))

/-! ## Cells -/

/-- Who executes: the thread was inside. -/
theorem step_executes {s s' : SState K V C.block.State} {i a c r j}
    (h : sstep C s i a = some (s', .executed j c r)) :
    j = i ∧ ∃ t, s.threads[i]? = some (.inside c t) := by
  simp only [sstep] at h
  split at h
  all_goals repeat' split at h
  all_goals simp only [Option.some.injEq, Prod.mk.injEq, reduceCtorEq, and_false, SEv.executed.injEq] at h
  all_goals obtain ⟨-, rfl, rfl, -⟩ := h
  all_goals exact ⟨rfl, _, by assumption⟩

/-- An exclusive holder of the outer lock is alone. -/
theorem SInv.outer {s : SState K V S} (hi : SInv s) {i j : Nat} {p q : Pc K V S} {m}
    (hij : i ≠ j) (hp : s.threads[i]? = some p) (hq : s.threads[j]? = some q)
    (h1 : p.hold = some .excl) (h2 : q.hold = some m) : False := by
  have hx := hi.xo
  have a1 := le_sum_two Pc.xo s.threads i j _ _ hij hp hq
  have a2 := le_sum Pc.xo s.threads _ (List.mem_of_getElem? hp)
  have a3 := le_sum Pc.so s.threads _ (List.mem_of_getElem? hq)
  have hs := hi.so
  have hxx := hi.xx
  have e1 : p.xo = 1 := by simp [Pc.xo, h1]
  cases hb : s.oWriter <;> simp only [hb, b2n_true, b2n_false] at hx hxx
  · omega
  · simp only [forall_const] at hxx
    cases m
    · have : q.so = 1 := by simp [Pc.so, h2]
      omega
    · have : q.xo = 1 := by simp [Pc.xo, h2]
      omega

end Byoc.Seq
