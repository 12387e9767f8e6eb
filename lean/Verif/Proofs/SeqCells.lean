import Verif.Model.SeqCells
import Verif.Proofs.Sequential

/-! Invariants of the cells of a `Sequential` shared by threads. -/

namespace Byoc.SeqCells

open Lock (Mode sum_set le_sum le_sum_two)
open Byoc.Seq (SCall nS nX b2n nS_shared nS_excl nS_none nX_shared nX_excl nX_none b2n_true b2n_false holding_cases)

variable {K V S P : Type}

/-- Holds the write guard of the inner lock. -/
def Pc.wi : Pc K V S P → Nat
  | .inside c _ => if c.write then 1 else 0
  | .leaving c _ => if c.write then 1 else 0
  | .closing c _ => if c.write then 1 else 0
  | _ => 0

/-- Holds a read guard of the inner lock. -/
def Pc.ri : Pc K V S P → Nat
  | .inside c _ => if c.write then 0 else 1
  | .leaving c _ => if c.write then 0 else 1
  | .closing c _ => if c.write then 0 else 1
  | _ => 0

/-- How the thread holds the outer lock. -/
def Pc.hold : Pc K V S P → Option Mode
  | .locked c => c.holding
  | .inside c _ => c.holding
  | .leaving c _ => c.holding
  | .cell m _ _ => some m
  | .dead h => h
  | _ => none

def Pc.so (p : Pc K V S P) : Nat := nS p.hold
def Pc.xo (p : Pc K V S P) : Nat := nX p.hold

structure CInv (s : CState K V S P) : Prop where
  wi : (s.threads.map Pc.wi).sum = b2n s.iWriter
  ri : (s.threads.map Pc.ri).sum = s.iReaders
  xi : s.iWriter = true → s.iReaders = 0
  xo : (s.threads.map Pc.xo).sum = b2n s.oWriter
  so : (s.threads.map Pc.so).sum = s.oReaders
  xx : s.oWriter = true → s.oReaders = 0


theorem new_inv (c : S) (n : Nat) : CInv (CState.new (K := K) (V := V) (P := P) c n) := by
  refine ⟨?_, ?_, ?_, ?_, ?_, ?_⟩ <;> simp [CState.new, Pc.wi, Pc.ri, Pc.so, Pc.xo, Pc.hold, b2n]




/-- A state change that sets thread `i` from `p` to `q`, in terms of the counters. -/
theorem CInv.change {s s' : CState K V S P} {i : Nat} {p q : Pc K V S P} (hi : CInv s)
    (hp : s.threads[i]? = some p) (ht : s'.threads = s.threads.set i q)
    (h1 : b2n s'.iWriter + p.wi = b2n s.iWriter + q.wi)
    (h2 : s'.iReaders + p.ri = s.iReaders + q.ri)
    (h3 : s'.iWriter = true → s'.iReaders = 0)
    (h4 : b2n s'.oWriter + p.xo = b2n s.oWriter + q.xo)
    (h5 : s'.oReaders + p.so = s.oReaders + q.so)
    (h6 : s'.oWriter = true → s'.oReaders = 0) : CInv s' := by
  have a1 := sum_set Pc.wi s.threads i p q hp
  have a2 := sum_set Pc.ri s.threads i p q hp
  have a3 := sum_set Pc.xo s.threads i p q hp
  have a4 := sum_set Pc.so s.threads i p q hp
  have := hi.wi; have := hi.ri; have := hi.xo; have := hi.so
  constructor
  · rw [ht]; omega
  · rw [ht]; omega
  · exact h3
  · rw [ht]; omega
  · rw [ht]; omega
  · exact h6

/-- A thread with the write guard excludes others from the guards. -/
theorem CInv.inner {s : CState K V S P} (hi : CInv s) {i j : Nat} {p q : Pc K V S P} (hij : i ≠ j)
    (hp : s.threads[i]? = some p) (hq : s.threads[j]? = some q) (hw : p.wi = 1) : q.wi = 0 ∧ q.ri = 0 := by
  have h1 := le_sum_two Pc.wi s.threads i j _ _ hij hp hq
  have h2 := hi.wi
  have h4 := le_sum Pc.ri s.threads _ (List.mem_of_getElem? hq)
  have h5 := hi.ri
  have h6 := hi.xi
  rw [hw] at h1
  cases hb : s.iWriter <;> simp only [hb, b2n_true, b2n_false] at h2 h6
  · omega
  · simp only [forall_const] at h6
    omega

/-- A thread with the outer lock for writing excludes others from it. -/
theorem CInv.outer {s : CState K V S P} (hi : CInv s) {i j : Nat} {p q : Pc K V S P} (hij : i ≠ j)
    (hp : s.threads[i]? = some p) (hq : s.threads[j]? = some q) (hw : p.hold = some .excl) : q.hold = none := by
  have h1 := le_sum_two Pc.xo s.threads i j _ _ hij hp hq
  have h2 := hi.xo
  have h4 := le_sum Pc.so s.threads _ (List.mem_of_getElem? hq)
  have h5 := hi.so
  have h6 := hi.xx
  simp only [Pc.xo, hw, nX_excl] at h1 h2
  cases hb : s.oWriter <;> simp only [hb, b2n_true, b2n_false] at h2 h6
  · omega
  · simp only [forall_const] at h6
    simp only [Pc.so] at h4 h5
    rcases hq : q.hold with _ | m
    · rfl
    · cases m <;> simp [hq] at h1 h4 <;> omega

variable {B : Block K V} {X : Cells B}

theorem step_inv {s s' : CState K V B.State X.Cell} {i a e} (hi : CInv s)
    (h : cstep X s i a = some (s', e)) : CInv s' := by
  have hle : ∀ p, s.threads[i]? = some p → p.wi ≤ b2n s.iWriter ∧ p.ri ≤ s.iReaders ∧
      p.xo ≤ b2n s.oWriter ∧ p.so ≤ s.oReaders := by
    intro p hp
    have hm := List.mem_of_getElem? hp
    exact ⟨hi.wi ▸ le_sum Pc.wi _ _ hm, hi.ri ▸ le_sum Pc.ri _ _ hm, hi.xo ▸ le_sum Pc.xo _ _ hm,
      hi.so ▸ le_sum Pc.so _ _ hm⟩
  simp only [cstep] at h
  split at h
  · -- idle
    rename_i c hp
    simp only [Option.some.injEq, Prod.mk.injEq] at h
    obtain ⟨rfl, -⟩ := h
    refine hi.change hp rfl ?_ ?_ hi.xi ?_ ?_ hi.xx <;>
      simp [CState.setPc, Pc.wi, Pc.ri, Pc.xo, Pc.so, Pc.hold]
  · -- start
    rename_i c hp
    have key : ∀ s1, (s1 = s ∧ False ∨ (s1 = (s.acquire c.holding).setPc i (.locked c)) ∧
        s.oWriter = false ∧ (c.mode = .excl → s.oReaders = 0)) → CInv s1 := by
      rintro s1 (⟨_, h⟩ | ⟨rfl, hw, hr⟩)
      · exact h.elim
      · rcases holding_cases c with hc | hc
        · rw [hc]
          refine hi.change hp rfl ?_ ?_ hi.xi ?_ ?_ hi.xx <;>
            simp [CState.setPc, CState.acquire, Pc.wi, Pc.ri, Pc.xo, Pc.so, Pc.hold, hc]
        · cases hm : c.mode
          · rw [hm] at hc
            rw [hc]
            refine hi.change hp rfl ?_ ?_ hi.xi ?_ ?_ ?_ <;>
              simp [CState.setPc, CState.acquire, Pc.wi, Pc.ri, Pc.xo, Pc.so, Pc.hold, hc, hw]
          · rw [hm] at hc
            rw [hc]
            refine hi.change hp rfl ?_ ?_ hi.xi ?_ ?_ ?_ <;>
              simp [CState.setPc, CState.acquire, Pc.wi, Pc.ri, Pc.xo, Pc.so, Pc.hold, hc, hw, b2n,
                hr hm]
    split at h
    · split at h
      · simp only [Option.some.injEq, Prod.mk.injEq] at h
        obtain ⟨rfl, -⟩ := h
        refine hi.change hp rfl ?_ ?_ hi.xi ?_ ?_ hi.xx <;>
          simp [CState.setPc, Pc.wi, Pc.ri, Pc.xo, Pc.so, Pc.hold]
      · simp only [Option.some.injEq, Prod.mk.injEq] at h
        obtain ⟨rfl, -⟩ := h
        refine hi.change hp rfl ?_ ?_ hi.xi ?_ ?_ hi.xx <;>
          simp [CState.setPc, Pc.wi, Pc.ri, Pc.xo, Pc.so, Pc.hold]
    · split at h
      · rename_i hm
        split at h
        · simp at h
        · rename_i hw
          simp only [Option.some.injEq, Prod.mk.injEq] at h
          obtain ⟨rfl, -⟩ := h
          exact key _ (.inr ⟨rfl, by simpa using hw, by simp [hm]⟩)
      · split at h
        · simp at h
        · rename_i hw
          simp only [Option.some.injEq, Prod.mk.injEq] at h
          obtain ⟨rfl, -⟩ := h
          simp only [not_or, Bool.not_eq_true, ne_eq, Decidable.not_not] at hw
          exact key _ (.inr ⟨rfl, hw.1, fun _ => hw.2⟩)
  · -- locked
    rename_i c hp
    have kdead : CInv (s.setPc i (.dead c.holding)) := by
      refine hi.change hp rfl ?_ ?_ hi.xi ?_ ?_ hi.xx <;>
        simp [CState.setPc, Pc.wi, Pc.ri, Pc.xo, Pc.so, Pc.hold]
    split at h
    · simp only [Option.some.injEq, Prod.mk.injEq] at h
      obtain ⟨rfl, -⟩ := h; exact kdead
    · split at h
      · rename_i hwr
        split at h
        · simp only [Option.some.injEq, Prod.mk.injEq] at h
          obtain ⟨rfl, -⟩ := h; exact kdead
        · rename_i hw
          simp only [not_or, Bool.not_eq_true, ne_eq, Decidable.not_not] at hw
          simp only [Option.some.injEq, Prod.mk.injEq] at h
          obtain ⟨rfl, -⟩ := h
          refine hi.change hp rfl ?_ ?_ ?_ ?_ ?_ hi.xx <;>
            simp [CState.setPc, Pc.wi, Pc.ri, Pc.xo, Pc.so, Pc.hold, hw, hwr, b2n]
      · rename_i hwr
        split at h
        · simp only [Option.some.injEq, Prod.mk.injEq] at h
          obtain ⟨rfl, -⟩ := h; exact kdead
        · rename_i hw
          simp only [Option.some.injEq, Prod.mk.injEq] at h
          obtain ⟨rfl, -⟩ := h
          refine hi.change hp rfl ?_ ?_ ?_ ?_ ?_ hi.xx <;>
            simp [CState.setPc, Pc.wi, Pc.ri, Pc.xo, Pc.so, Pc.hold, hw, hwr]
  · -- inside
    rename_i c snap hp
    have hl := hle _ hp
    split at h
    · simp only [Option.some.injEq, Prod.mk.injEq] at h
      obtain ⟨rfl, -⟩ := h
      have hxi := hi.xi
      cases hwr : c.write
      · simp only [Pc.wi, Pc.ri, hwr] at hl
        have hr : 1 ≤ s.iReaders := by simpa using hl.2.1
        refine hi.change (q := .dead c.holding) hp (by simp [CState.setPc, CState.dropGuard]) ?_ ?_ ?_ ?_ ?_ ?_ <;>
          simp [CState.setPc, CState.dropGuard, Pc.wi, Pc.ri, Pc.xo, Pc.so, Pc.hold, hwr, b2n]
        · omega
        · intro hb; have := hxi hb; omega
        · exact hi.xx
      · simp only [Pc.wi, Pc.ri, hwr] at hl
        have hb : s.iWriter = true := by
          have := hl.1; cases hb : s.iWriter <;> simp [hb, b2n] at this ⊢
        refine hi.change (q := .dead c.holding) hp (by simp [CState.setPc, CState.dropGuard]) ?_ ?_ ?_ ?_ ?_ ?_ <;>
          simp [CState.setPc, CState.dropGuard, Pc.wi, Pc.ri, Pc.xo, Pc.so, Pc.hold, hwr, b2n, hb]
        exact hi.xx
    · simp only [Option.some.injEq, Prod.mk.injEq] at h
      obtain ⟨rfl, -⟩ := h
      refine hi.change (q := .leaving c _) hp rfl ?_ ?_ ?_ ?_ ?_ ?_ <;> 
        try simp [CState.setPc, Pc.wi, Pc.ri, Pc.xo, Pc.so, Pc.hold]
      · exact hi.xi
      · exact hi.xx
  · -- leaving
    rename_i c r hp
    have hl := hle _ hp
    have hxi := hi.xi
    have hxx := hi.xx
    have kcell : ∀ m k p, c.holding = some m → CInv ((s.dropGuard c.write).setPc i (.cell m k p)) := by
      intro m k p hm
      cases hwr : c.write
      · simp only [Pc.wi, Pc.ri, hwr] at hl
        have hr : 1 ≤ s.iReaders := by simpa using hl.2.1
        refine hi.change (q := .cell m k p) hp (by simp [CState.setPc, CState.dropGuard]) ?_ ?_ ?_ ?_ ?_ ?_ <;>
          simp [CState.setPc, CState.dropGuard, Pc.wi, Pc.ri, Pc.xo, Pc.so, Pc.hold, hwr, b2n, hm]
        · omega
        · intro hb; have := hxi hb; omega
        · exact hi.xx
      · simp only [Pc.wi, Pc.ri, hwr] at hl
        have hb : s.iWriter = true := by
          have := hl.1; cases hb : s.iWriter <;> simp [hb, b2n] at this ⊢
        refine hi.change (q := .cell m k p) hp (by simp [CState.setPc, CState.dropGuard]) ?_ ?_ ?_ ?_ ?_ ?_ <;>
          simp [CState.setPc, CState.dropGuard, Pc.wi, Pc.ri, Pc.xo, Pc.so, Pc.hold, hwr, b2n, hb, hm]
        exact hi.xx
    have kclose : ∀ r', CInv ((s.release c.holding).setPc i (.closing c r')) := by
      intro r'
      rcases hm : c.holding with _ | m
      · refine hi.change hp rfl ?_ ?_ hi.xi ?_ ?_ hi.xx <;>
          simp [CState.setPc, CState.release, Pc.wi, Pc.ri, Pc.xo, Pc.so, Pc.hold, hm]
      · cases m
        · simp only [Pc.so, Pc.hold, hm] at hl
          have hr : 1 ≤ s.oReaders := by simpa using hl.2.2.2
          refine hi.change hp rfl ?_ ?_ hi.xi ?_ ?_ ?_ <;>
            simp [CState.setPc, CState.release, Pc.wi, Pc.ri, Pc.xo, Pc.so, Pc.hold, hm]
          · omega
          · intro hb; have := hxx hb; omega
        · simp only [Pc.xo, Pc.hold, hm] at hl
          have hb : s.oWriter = true := by
            have := hl.2.2.1; cases hb : s.oWriter <;> simp [hb, b2n] at this ⊢
          refine hi.change hp rfl ?_ ?_ hi.xi ?_ ?_ ?_ <;>
            simp [CState.setPc, CState.release, Pc.wi, Pc.ri, Pc.xo, Pc.so, Pc.hold, hm, hb]
    split at h
    · simp only [Option.some.injEq, Prod.mk.injEq] at h
      obtain ⟨rfl, -⟩ := h
      exact kcell _ _ _ rfl
    · simp only [Option.some.injEq, Prod.mk.injEq] at h
      obtain ⟨rfl, -⟩ := h
      exact kcell _ _ _ rfl
    · simp only [Option.some.injEq, Prod.mk.injEq] at h
      obtain ⟨rfl, -⟩ := h
      exact kclose _
  · -- closing
    rename_i c r hp
    have hl := hle _ hp
    have hxi := hi.xi
    simp only [Option.some.injEq, Prod.mk.injEq] at h
    obtain ⟨rfl, -⟩ := h
    cases hwr : c.write
    · simp only [Pc.wi, Pc.ri, hwr] at hl
      have hr : 1 ≤ s.iReaders := by simpa using hl.2.1
      refine hi.change (q := .idle) hp (by simp [CState.setPc, CState.dropGuard]) ?_ ?_ ?_ ?_ ?_ ?_ <;>
        simp [CState.setPc, CState.dropGuard, Pc.wi, Pc.ri, Pc.xo, Pc.so, Pc.hold, hwr, b2n]
      · omega
      · intro hb; have := hxi hb; omega
      · exact hi.xx
    · simp only [Pc.wi, Pc.ri, hwr] at hl
      have hb : s.iWriter = true := by
        have := hl.1; cases hb : s.iWriter <;> simp [hb, b2n] at this ⊢
      refine hi.change (q := .idle) hp (by simp [CState.setPc, CState.dropGuard]) ?_ ?_ ?_ ?_ ?_ ?_ <;>
        simp [CState.setPc, CState.dropGuard, Pc.wi, Pc.ri, Pc.xo, Pc.so, Pc.hold, hwr, b2n, hb]
      exact hi.xx
  · -- deref
    simp only [Option.some.injEq, Prod.mk.injEq] at h
    obtain ⟨rfl, -⟩ := h
    exact hi
  · -- write
    rename_i k p v hp
    simp only [Option.some.injEq, Prod.mk.injEq] at h
    obtain ⟨rfl, -⟩ := h
    refine hi.change hp rfl ?_ ?_ hi.xi ?_ ?_ hi.xx <;>
      simp [CState.setPc, Pc.wi, Pc.ri, Pc.xo, Pc.so, Pc.hold]
  · -- cell
    rename_i m k p hp
    have hl := hle _ hp
    have hxx := hi.xx
    simp only [Option.some.injEq, Prod.mk.injEq] at h
    obtain ⟨rfl, -⟩ := h
    cases m
    · simp only [Pc.so, Pc.hold] at hl
      have hr : 1 ≤ s.oReaders := by simpa using hl.2.2.2
      refine hi.change hp rfl ?_ ?_ hi.xi ?_ ?_ ?_ <;>
        simp [CState.setPc, CState.release, Pc.wi, Pc.ri, Pc.xo, Pc.so, Pc.hold]
      · omega
      · intro hb; have := hxx hb; omega
    · simp only [Pc.xo, Pc.hold] at hl
      have hb : s.oWriter = true := by
        have := hl.2.2.1; cases hb : s.oWriter <;> simp [hb, b2n] at this ⊢
      refine hi.change hp rfl ?_ ?_ hi.xi ?_ ?_ ?_ <;>
        simp [CState.setPc, CState.release, Pc.wi, Pc.ri, Pc.xo, Pc.so, Pc.hold, hb]
  · -- dropping
    rename_i k p hp
    split at h
    all_goals
      simp only [Option.some.injEq, Prod.mk.injEq] at h
      obtain ⟨rfl, -⟩ := h
      refine hi.change hp rfl ?_ ?_ hi.xi ?_ ?_ hi.xx <;>
        simp [CState.setPc, Pc.wi, Pc.ri, Pc.xo, Pc.so, Pc.hold]
  · -- dead
    rename_i m hp
    simp only [Option.some.injEq, Prod.mk.injEq] at h
    obtain ⟨rfl, -⟩ := h
    refine hi.change hp rfl ?_ ?_ hi.xi ?_ ?_ hi.xx <;>
      simp [CState.setPc, Pc.wi, Pc.ri, Pc.xo, Pc.so, Pc.hold]
  · simp at h


theorem CRun.inv {s₀ s : CState K V B.State X.Cell} {l} (h : CRun X s₀ l s) (h0 : CInv s₀) : CInv s := by
  induction h with
  | nil => exact h0
  | snoc _ hs ih => exact step_inv ih hs

@[simp] theorem acquire_threads (s : CState K V S P) (h) : (s.acquire h).threads = s.threads := by
  rcases h with _ | m
  · rfl
  · cases m <;> rfl

@[simp] theorem release_threads (s : CState K V S P) (h) : (s.release h).threads = s.threads := by
  rcases h with _ | m
  · rfl
  · cases m <;> rfl

@[simp] theorem dropGuard_threads (s : CState K V S P) (b) : (s.dropGuard b).threads = s.threads := by
  cases b <;> rfl

@[simp] theorem acquire_cont (s : CState K V S P) (h) : (s.acquire h).cont = s.cont := by
  rcases h with _ | m
  · rfl
  · cases m <;> rfl

@[simp] theorem release_cont (s : CState K V S P) (h) : (s.release h).cont = s.cont := by
  rcases h with _ | m
  · rfl
  · cases m <;> rfl

@[simp] theorem dropGuard_cont (s : CState K V S P) (b) : (s.dropGuard b).cont = s.cont := by
  cases b <;> rfl

@[simp] theorem setPc_cont (s : CState K V S P) (i p) : (s.setPc i p).cont = s.cont := rfl

@[simp] theorem setPc_threads (s : CState K V S P) (i p) : (s.setPc i p).threads = s.threads.set i p := rfl

/-! ## Cells that stay where they are -/

/-- Calls that remove nothing but what `push` evicts. -/
def Gentle : SCall K V → Prop
  | .op (.contains _) => True
  | .op (.push _) => True
  | .op _ => False
  | _ => True

/-- The cells of a container point to elements which neither `get`, `get_mut`, dropping a cell nor writing through a
cell moves; an access by `G` (`GetOps`) is obtaining a cell, using it and dropping it. -/
structure Pins (X : Cells B) (G : GetOps B) (I : B.State → Prop) : Prop where
  get : ∀ s k, I s → ∃ o, X.get s k = .ok (o, s) ∧ X.getMut s k = .ok (o, s) ∧
    G.get s k id = .ok (o.bind (X.deref s), s) ∧ G.getMut s k id = .ok (o.bind (X.deref s), s) ∧
    (o.bind (X.deref s)).isSome = o.isSome
  write : ∀ s k p v, I s → X.get s k = .ok (some p, s) →
    ∃ s' u, X.write s p v = (p, s') ∧ I s' ∧ G.getMut s k (fun _ => v) = .ok (some u, s') ∧
      B.capacity s' = B.capacity s ∧ B.size s' = B.size s ∧
      (∀ k' b, B.contains s k' = .ok (b, s) → B.contains s' k' = .ok (b, s')) ∧
      ∀ k' o, X.get s k' = .ok (o, s) → X.get s' k' = .ok (o, s')
  miss : ∀ s k v, I s → X.get s k = .ok (none, s) → G.getMut s k (fun _ => v) = .ok (none, s)
  drop : ∀ s p, X.drop s p = .ok s
  contains : ∀ s k, I s → ∃ b, B.contains s k = .ok (b, s)
  push : ∀ s l out s', I s → B.push s l = .ok (out, s') → I s'

/-- The two containers give the same answers to `capacity`, `size` and `contains`. -/
structure Agree (a b : B.State) : Prop where
  capacity : B.capacity a = B.capacity b
  size : B.size a = B.size b
  contains : ∀ k x, B.contains a k = .ok (x, a) → B.contains b k = .ok (x, b)

/-- What is known of a thread, `t` being the container. -/
def Pc.Good (X : Cells B) (I : B.State → Prop) (t : B.State) : Pc K V B.State X.Cell → Prop
  | .start c => Gentle c
  | .locked c => Gentle c
  | .inside c snap => Gentle c ∧ I snap ∧ (c.write = true → snap = t) ∧ Agree snap t
  | .leaving (.get k) (.cell (some p)) => X.get t k = .ok (some p, t)
  | .leaving (.getMut k) (.cell (some p)) => X.get t k = .ok (some p, t)
  | .cell _ k p => X.get t k = .ok (some p, t)
  | _ => True

/-- What an event must be if each access to a cell were a `get` or `get_mut` of its own, the cell being
dropped at once: the container goes from `s` to `t`. -/
def Accounts (G : GetOps B) (s t : B.State) : CEv K V P → Prop
  | .executed _ .capacity r => r = .num (B.capacity s) ∧ t = s
  | .executed _ .size r => r = .num (B.size s) ∧ t = s
  | .executed _ (.op o) r => ∃ x, r = .obs x ∧ B.observe s o = .ok (x, t)
  | .executed _ (.get k) r => ∃ c v, r = .cell c ∧ G.get s k id = .ok (v, t) ∧ c.isSome = v.isSome
  | .executed _ (.getMut k) r => ∃ c v, r = .cell c ∧ G.getMut s k id = .ok (v, t) ∧ c.isSome = v.isSome
  | .read _ k v => ∃ u, v = some u ∧ G.get s k id = .ok (some u, t)
  | .wrote _ k v => ∃ u, G.getMut s k (fun _ => v) = .ok (some u, t)
  | .dropPanicked _ _ => False
  | _ => t = s

theorem Agree.refl (a : B.State) : Agree (B := B) a a := ⟨rfl, rfl, fun _ _ h => h⟩

theorem Agree.trans {a b c : B.State} (h : Agree (B := B) a b) (h' : Agree (B := B) b c) : Agree (B := B) a c :=
  ⟨h.1.trans h'.1, h.2.trans h'.2, fun k x e => h'.3 k x (h.3 k x e)⟩

structure Good (X : Cells B) (I : B.State → Prop) (s : CState K V B.State X.Cell) : Prop where
  locks : CInv s
  inv : I s.cont
  all : ∀ p ∈ s.threads, p.Good X I s.cont

theorem Good.set {I : B.State → Prop} {s s' : CState K V B.State X.Cell} {i : Nat} {q} (h : Good X I s)
    (hl : CInv s') (hc : s'.cont = s.cont) (ht : s'.threads = s.threads.set i q) (hq : q.Good X I s.cont) :
    Good X I s' := by
  refine ⟨hl, hc ▸ h.inv, ?_⟩
  rw [ht, hc]
  intro p hp
  rcases List.mem_or_eq_of_mem_set hp with hp | rfl
  · exact h.all p hp
  · exact hq

/-- The container changes while thread `i` has the outer lock for writing. -/
theorem Good.alone {I : B.State → Prop} {s s' : CState K V B.State X.Cell} {i : Nat} {p q} (h : Good X I s)
    (hl : CInv s') (hI : I s'.cont) (hp : s.threads[i]? = some p) (ht : s'.threads = s.threads.set i q)
    (hx : p.hold = some .excl) (hq : q.Good X I s'.cont)
    (hin : ∀ (j : Nat) c snap, j ≠ i → s.threads[j]? = some (.inside c snap) → Agree (B := B) s.cont s'.cont) :
    Good X I s' := by
  refine ⟨hl, hI, ?_⟩
  rw [ht]
  intro r hr
  obtain ⟨j, hj, hjr⟩ := List.mem_iff_getElem.1 hr
  by_cases hij : j = i
  · subst hij
    have : q = r := by simpa using hjr
    exact this ▸ hq
  · have hr' : s.threads[j]? = some r := by
      rw [← List.getElem?_set_ne (Ne.symm hij) (a := q), List.getElem?_eq_getElem hj, hjr]
    have hn := h.locks.outer (Ne.symm hij) hp hr' hx
    have hg := h.all r (List.mem_of_getElem? hr')
    match r, hn, hg with
    | .idle, _, _ => trivial
    | .start _, _, hg => exact hg
    | .locked _, _, hg => exact hg
    | .inside c snap, hn, hg =>
      obtain ⟨g1, g2, g3, g4⟩ := hg
      have ha := hin j c snap hij hr'
      refine ⟨g1, g2, ?_, g4.trans ha⟩
      intro hw
      exfalso
      cases c with
      | op o => cases o <;> simp [Gentle, SCall.write, Pc.hold, SCall.holding, SCall.keeps] at g1 hw hn
      | _ => simp [SCall.write, Pc.hold, SCall.holding, SCall.keeps] at hw hn
    | .leaving c x, hn, hg =>
      cases c with
      | get k => simp [Pc.hold, SCall.holding, SCall.keeps] at hn
      | getMut k => simp [Pc.hold, SCall.holding, SCall.keeps] at hn
      | _ => trivial
    | .closing _ _, _, _ => trivial
    | .cell m k x, hn, _ => simp [Pc.hold] at hn
    | .dropping _ _, _, _ => trivial
    | .dead _, _, _ => trivial

theorem step_good {G : GetOps B} {I : B.State → Prop} (hX : Pins X G I) {s s' : CState K V B.State X.Cell} {i a e}
    (h : Good X I s) (hs : cstep X s i a = some (s', e)) (hc : ∀ j c, e = .called j c → Gentle c) :
    Good X I s' ∧ Accounts G s.cont s'.cont e := by
  have hl := step_inv h.locks hs
  have hall : ∀ p, s.threads[i]? = some p → p.Good X I s.cont := fun p hp => h.all p (List.mem_of_getElem? hp)
  simp only [cstep] at hs
  split at hs
  · -- idle
    rename_i c hp
    simp only [Option.some.injEq, Prod.mk.injEq] at hs
    obtain ⟨rfl, rfl⟩ := hs
    exact ⟨h.set hl rfl rfl (hc _ _ rfl), rfl⟩
  · -- start
    rename_i c hp
    have hg : Gentle c := hall _ hp
    split at hs
    · split at hs
      all_goals
        simp only [Option.some.injEq, Prod.mk.injEq] at hs
        obtain ⟨rfl, rfl⟩ := hs
        exact ⟨h.set hl rfl rfl trivial, rfl⟩
    · split at hs
      all_goals
        split at hs
        · simp at hs
        · simp only [Option.some.injEq, Prod.mk.injEq] at hs
          obtain ⟨rfl, rfl⟩ := hs
          exact ⟨h.set (i := i) (q := .locked c) hl (by simp) (by simp) hg, by simp [Accounts]⟩
  · -- locked
    rename_i c hp
    have hg : Gentle c := hall _ hp
    have hin : (Pc.inside c s.cont : Pc K V B.State X.Cell).Good X I s.cont :=
      ⟨hg, h.inv, fun _ => rfl, Agree.refl _⟩
    split at hs
    · simp only [Option.some.injEq, Prod.mk.injEq] at hs
      obtain ⟨rfl, rfl⟩ := hs
      exact ⟨h.set hl rfl rfl trivial, rfl⟩
    · split at hs
      all_goals
        split at hs
        all_goals
          simp only [Option.some.injEq, Prod.mk.injEq] at hs
          obtain ⟨rfl, rfl⟩ := hs
          first
          | exact ⟨h.set hl rfl rfl hin, rfl⟩
          | exact ⟨h.set hl rfl rfl trivial, rfl⟩
  · -- inside
    rename_i c snap hp
    obtain ⟨hg, hI, hw, hag⟩ := hall _ hp
    split at hs
    · simp only [Option.some.injEq, Prod.mk.injEq] at hs
      obtain ⟨rfl, rfl⟩ := hs
      exact ⟨h.set (i := i) (q := .dead c.holding) hl (by simp [CState.setPc]) (by simp [CState.setPc]) trivial, by simp [Accounts, CState.setPc]⟩
    · rename_i r t he
      simp only [Option.some.injEq, Prod.mk.injEq] at hs
      obtain ⟨rfl, rfl⟩ := hs
      cases c with
      | capacity =>
        simp only [exec, Res.ok.injEq, Prod.mk.injEq] at he
        obtain ⟨rfl, rfl⟩ := he
        exact ⟨h.set hl (by simp [SCall.write]) rfl trivial, by simp [Accounts, SCall.write, hag.capacity]⟩
      | size =>
        simp only [exec, Res.ok.injEq, Prod.mk.injEq] at he
        obtain ⟨rfl, rfl⟩ := he
        exact ⟨h.set hl (by simp [SCall.write]) rfl trivial, by simp [Accounts, SCall.write, hag.size]⟩
      | get k =>
        have hst := hw rfl
        subst hst
        obtain ⟨o, h1, h2, h3, h4, h5⟩ := hX.get _ k h.inv
        simp only [exec, h1, Res.ok_bind, Res.pure_eq, Res.ok.injEq, Prod.mk.injEq] at he
        obtain ⟨rfl, rfl⟩ := he
        refine ⟨h.set hl rfl rfl ?_, ⟨o, _, rfl, h3, h5.symm⟩⟩
        cases o with
        | none => trivial
        | some p => exact h1
      | getMut k =>
        have hst := hw rfl
        subst hst
        obtain ⟨o, h1, h2, h3, h4, h5⟩ := hX.get _ k h.inv
        simp only [exec, h2, Res.ok_bind, Res.pure_eq, Res.ok.injEq, Prod.mk.injEq] at he
        obtain ⟨rfl, rfl⟩ := he
        refine ⟨h.set hl rfl rfl ?_, ⟨o, _, rfl, h4, h5.symm⟩⟩
        cases o with
        | none => trivial
        | some p => exact h1
      | op o =>
        cases o with
        | contains k =>
          obtain ⟨b, hb⟩ := hX.contains _ k hI
          have hb' := hag.contains _ _ hb
          simp only [exec, Block.observe, hb, Res.ok_bind, Res.pure_eq, Res.ok.injEq, Prod.mk.injEq] at he
          obtain ⟨rfl, rfl⟩ := he
          exact ⟨h.set hl (by simp [SCall.write]) rfl trivial, ⟨_, rfl, by simp [Block.observe, hb', SCall.write]⟩⟩
        | push x =>
          have hst := hw rfl
          subst hst
          simp only [exec, Block.observe] at he
          cases hx : B.push s.cont x with
          | panic => simp [hx] at he
          | ok y =>
            obtain ⟨out, t'⟩ := y
            simp only [hx, Res.ok_bind, Res.pure_eq, Res.ok.injEq, Prod.mk.injEq] at he
            obtain ⟨rfl, rfl⟩ := he
            refine ⟨h.alone hl (by simpa [SCall.write] using hX.push _ _ _ _ h.inv hx) hp rfl rfl trivial ?_,
              ⟨_, rfl, by simp [Block.observe, hx, SCall.write]⟩⟩
            intro j c snap' hj hjt
            have := h.locks.inner (Ne.symm hj) hp hjt (by simp [Pc.wi, SCall.write])
            simp only [Pc.wi, Pc.ri] at this
            obtain ⟨a1, a2⟩ := this
            cases hcw : c.write <;> simp [hcw] at a1 a2
        | _ => exact hg.elim
  · -- leaving
    rename_i c r hp
    have hg := hall _ hp
    split at hs
    · rename_i k p
      simp only [Option.some.injEq, Prod.mk.injEq] at hs
      obtain ⟨rfl, rfl⟩ := hs
      exact ⟨h.set (i := i) (q := .cell .shared k p) hl (by simp) (by simp) hg, by simp [Accounts]⟩
    · rename_i k p
      simp only [Option.some.injEq, Prod.mk.injEq] at hs
      obtain ⟨rfl, rfl⟩ := hs
      exact ⟨h.set (i := i) (q := .cell .excl k p) hl (by simp) (by simp) hg, by simp [Accounts]⟩
    · simp only [Option.some.injEq, Prod.mk.injEq] at hs
      obtain ⟨rfl, rfl⟩ := hs
      exact ⟨h.set (i := i) (q := .closing c r) hl (by simp) (by simp) trivial, by simp [Accounts]⟩
  · -- closing
    simp only [Option.some.injEq, Prod.mk.injEq] at hs
    obtain ⟨rfl, rfl⟩ := hs
    exact ⟨h.set (i := i) (q := .idle) hl (by simp) (by simp) trivial, by simp [Accounts]⟩
  · -- deref
    rename_i m k p hp
    have hg : X.get s.cont k = .ok (some p, s.cont) := hall _ hp
    simp only [Option.some.injEq, Prod.mk.injEq] at hs
    obtain ⟨rfl, rfl⟩ := hs
    obtain ⟨o, h1, h2, h3, h4, h5⟩ := hX.get _ k h.inv
    rw [hg] at h1
    simp only [Res.ok.injEq, Prod.mk.injEq, and_true] at h1
    subst h1
    simp only [Option.bind_some] at h3 h5
    obtain ⟨u, hu⟩ := Option.isSome_iff_exists.1 (h5.trans rfl)
    exact ⟨h, ⟨u, hu, by rw [h3, hu]⟩⟩
  · -- write
    rename_i k p v hp
    have hg : X.get s.cont k = .ok (some p, s.cont) := hall _ hp
    simp only [Option.some.injEq, Prod.mk.injEq] at hs
    obtain ⟨rfl, rfl⟩ := hs
    obtain ⟨t, u, h1, h2, h3, h4, h5, h6, h7⟩ := hX.write _ k p v h.inv hg
    rw [h1] at hl ⊢
    refine ⟨h.alone hl h2 hp rfl rfl (h7 _ _ hg) ?_, ⟨u, h3⟩⟩
    intro j c snap hj hjt
    exact ⟨h4.symm, h5.symm, h6⟩
  · -- dropCell
    rename_i m k p hp
    simp only [Option.some.injEq, Prod.mk.injEq] at hs
    obtain ⟨rfl, rfl⟩ := hs
    exact ⟨h.set (i := i) (q := .dropping k p) hl (by simp) (by simp) trivial, by simp [Accounts]⟩
  · -- dropping
    rename_i k p hp
    rw [hX.drop] at hs
    simp only [Option.some.injEq, Prod.mk.injEq] at hs
    obtain ⟨rfl, rfl⟩ := hs
    exact ⟨h.set hl rfl rfl trivial, rfl⟩
  · -- dead
    simp only [Option.some.injEq, Prod.mk.injEq] at hs
    obtain ⟨rfl, rfl⟩ := hs
    exact ⟨h.set hl rfl rfl trivial, rfl⟩
  · simp at hs

end Byoc.SeqCells
