import Verif.Proofs.Pins
import Verif.Proofs.Compressed

/-! Cells that are copies, written back when dropped, behind a `Sequential` shared by threads. -/

namespace Byoc.SeqCells

open Lock (Mode)
open Byoc.Seq (SCall)

variable {K V : Type} {B : Block K V} {X : Cells B}

/-- The cells of a container are copies.  `Pend s k p a`: the cell `p`, obtained for `k`, gives the container `a` if it
is dropped now, the container being `s`.  `Clean`: the cell was not written. -/
structure Copies (X : Cells B) (G : GetOps B) (I : B.State → Prop) (Clean : X.Cell → Prop)
    (Pend : B.State → K → X.Cell → B.State → Prop) : Prop where
  get : ∀ s k, I s → ∃ o, X.get s k = .ok (o, s) ∧ X.getMut s k = .ok (o, s) ∧
    G.get s k id = .ok (o.bind (X.deref s), s) ∧ G.getMut s k id = .ok (o.bind (X.deref s), s) ∧
    (o.bind (X.deref s)).isSome = o.isSome ∧ ∀ p, o = some p → Clean p ∧ Pend s k p s
  clean : ∀ s p, Clean p → X.drop s p = .ok s
  drop : ∀ s k p a, I s → Pend s k p a → X.drop s p = .ok a
  deref : ∀ s k p a, I s → Pend s k p a → ∃ v, X.deref s p = some v ∧ G.get a k id = .ok (some v, a)
  write : ∀ s k p a v, I s → Pend s k p a → ∃ p' a' u, X.write s p v = (p', s) ∧ ¬ Clean p' ∧ Pend s k p' a' ∧ I a' ∧
    G.getMut a k (fun _ => v) = .ok (some u, a') ∧ Agree (B := B) a a'
  contains : ∀ s k, I s → ∃ b, B.contains s k = .ok (b, s)
  push : ∀ s l out s', I s → B.push s l = .ok (out, s') → I s'

variable {Clean : X.Cell → Prop} {Pend : B.State → K → X.Cell → B.State → Prop}

/-- The cell of the thread was written. -/
def Pc.Dirty (Clean : X.Cell → Prop) : Pc K V B.State X.Cell → Prop
  | .cell _ _ p => ¬ Clean p
  | .dropping _ p => ¬ Clean p
  | _ => False

/-- What is known of a thread: `t` is the container, `a` what it becomes once written cells are dropped. -/
def Pc.Fine (I : B.State → Prop) (Clean : X.Cell → Prop) (Pend : B.State → K → X.Cell → B.State → Prop)
    (t a : B.State) : Pc K V B.State X.Cell → Prop
  | .start c => Gentle c
  | .locked c => Gentle c
  | .inside c snap => Gentle c ∧ I snap ∧ (c.write = true → snap = t ∧ t = a) ∧ Agree (B := B) snap a
  | .leaving (.get k) (.cell (some p)) => Clean p ∧ Pend t k p t ∧ t = a
  | .leaving (.getMut k) (.cell (some p)) => Clean p ∧ Pend t k p t ∧ t = a
  | .cell m k p => Pend t k p a ∧ (m = .shared → Clean p) ∧ (Clean p → t = a)
  | .dropping k p => Clean p ∨ Pend t k p a
  | _ => True

structure Fine (X : Cells B) (I : B.State → Prop) (Clean : X.Cell → Prop)
    (Pend : B.State → K → X.Cell → B.State → Prop) (s : CState K V B.State X.Cell) (a : B.State) : Prop where
  locks : CInv s
  inv : I s.cont
  inv' : I a
  agree : Agree (B := B) s.cont a
  all : ∀ (j : Nat) p, s.threads[j]? = some p → p.Fine I Clean Pend s.cont a
  one : ∀ (i j : Nat) p q, s.threads[i]? = some p → s.threads[j]? = some q → p.Dirty Clean → q.Dirty Clean → i = j
  rest : s.cont = a ∨ ∃ (j : Nat) (p : Pc K V B.State X.Cell), s.threads[j]? = some p ∧ p.Dirty Clean

/-- No other thread is dropping a written cell. -/
def Undisturbed (Clean : X.Cell → Prop) (s : CState K V B.State X.Cell) (i : Nat) : Prop :=
  ∀ (j : Nat) k p, j ≠ i → s.threads[j]? = some (.dropping k p) → Clean p

theorem getElem?_set_cases {T : Type} {l : List T} {i j : Nat} {q r : T} (h : (l.set i q)[j]? = some r) :
    (j = i ∧ r = q) ∨ (j ≠ i ∧ l[j]? = some r) := by
  by_cases hij : j = i
  · subst hij
    left
    rw [List.getElem?_set] at h
    simp only [if_true] at h
    split at h
    · exact ⟨rfl, (Option.some.inj h).symm⟩
    · cases h
  · right
    rw [List.getElem?_set_ne (Ne.symm hij)] at h
    exact ⟨hij, h⟩

variable {I : B.State → Prop}

/-- The thread moves and the container does not change. -/
theorem Fine.set {s s' : CState K V B.State X.Cell} {a : B.State} {i : Nat} {p q} (h : Fine X I Clean Pend s a)
    (hl : CInv s') (hc : s'.cont = s.cont) (hp : s.threads[i]? = some p) (ht : s'.threads = s.threads.set i q)
    (hq : q.Fine I Clean Pend s.cont a) (hd : q.Dirty Clean ↔ p.Dirty Clean) : Fine X I Clean Pend s' a := by
  have hlt : i < s.threads.length := (List.getElem?_eq_some_iff.1 hp).1
  refine ⟨hl, hc ▸ h.inv, h.inv', hc ▸ h.agree, ?_, ?_, ?_⟩
  · rw [ht, hc]
    intro j r hr
    rcases getElem?_set_cases hr with ⟨rfl, rfl⟩ | ⟨_, hr⟩
    · exact hq
    · exact h.all j r hr
  · rw [ht]
    intro j j' r r' hr hr' hd1 hd2
    rcases getElem?_set_cases hr with ⟨e1, e2⟩ | ⟨hj, g1⟩ <;>
      rcases getElem?_set_cases hr' with ⟨e3, e4⟩ | ⟨hj', g2⟩
    · rw [e1, e3]
    · rw [e1]; rw [e2] at hd1; exact h.one _ _ _ _ hp g2 (hd.1 hd1) hd2
    · rw [e3]; rw [e4] at hd2; exact h.one _ _ _ _ g1 hp hd1 (hd.1 hd2)
    · exact h.one _ _ _ _ g1 g2 hd1 hd2
  · rw [ht, hc]
    rcases h.rest with h1 | ⟨j, r, h1, h2⟩
    · exact .inl h1
    · by_cases hj : j = i
      · subst hj
        rw [hp] at h1
        cases h1
        exact .inr ⟨j, q, by simp [hlt], hd.2 h2⟩
      · exact .inr ⟨j, r, by rw [List.getElem?_set_ne (Ne.symm hj)]; exact h1, h2⟩

/-- The container or what it becomes changes while thread `i` has the outer lock for writing. -/
theorem Fine.alone {s s' : CState K V B.State X.Cell} {a a' : B.State} {i : Nat} {p q} (h : Fine X I Clean Pend s a)
    (hl : CInv s') (hI : I s'.cont) (hI' : I a') (hp : s.threads[i]? = some p) (ht : s'.threads = s.threads.set i q)
    (hx : p.hold = some .excl) (hq : q.Fine I Clean Pend s'.cont a') (hu : Undisturbed Clean s i)
    (hin : ∀ (j : Nat) c snap, j ≠ i → s.threads[j]? = some (.inside c snap) → Agree (B := B) a a')
    (hr : s'.cont = a' ∨ q.Dirty Clean) (hag : Agree (B := B) s'.cont a') : Fine X I Clean Pend s' a' := by
  have hlt : i < s.threads.length := (List.getElem?_eq_some_iff.1 hp).1
  have hclean : ∀ (j : Nat) r, j ≠ i → s.threads[j]? = some r → ¬ r.Dirty Clean := by
    intro j r hj hr hd
    have hn := h.locks.outer (Ne.symm hj) hp hr hx
    cases r with
    | cell m k x => simp [Pc.hold] at hn
    | dropping k x => exact hd (hu j k x hj hr)
    | _ => exact hd
  refine ⟨hl, hI, hI', hag, ?_, ?_, ?_⟩
  · rw [ht]
    intro j r hr'
    rcases getElem?_set_cases hr' with ⟨rfl, rfl⟩ | ⟨hij, hr'⟩
    · exact hq
    · have hn := h.locks.outer (Ne.symm hij) hp hr' hx
      have hg := h.all j r hr'
      match r, hn, hg, hr' with
      | .idle, _, _, _ => trivial
      | .start _, _, hg, _ => exact hg
      | .locked _, _, hg, _ => exact hg
      | .inside c snap, hn, hg, hr' =>
        obtain ⟨g1, g2, g3, g4⟩ := hg
        have ha := hin j c snap hij hr'
        refine ⟨g1, g2, ?_, g4.trans ha⟩
        intro hw
        exfalso
        cases c with
        | op o => cases o <;> simp [Gentle, SCall.write, Pc.hold, SCall.holding, SCall.keeps] at g1 hw hn
        | _ => simp [SCall.write, Pc.hold, SCall.holding, SCall.keeps] at hw hn
      | .leaving c x, hn, hg, _ =>
        cases c with
        | get k => simp [Pc.hold, SCall.holding, SCall.keeps] at hn
        | getMut k => simp [Pc.hold, SCall.holding, SCall.keeps] at hn
        | _ => trivial
      | .closing _ _, _, _, _ => trivial
      | .cell m k x, hn, _, _ => simp [Pc.hold] at hn
      | .dropping k x, _, _, hr' => exact .inl (hu j k x hij hr')
      | .dead _, _, _, _ => trivial
  · rw [ht]
    intro j j' r r' h1 h2 hd1 hd2
    rcases getElem?_set_cases h1 with ⟨e1, e2⟩ | ⟨hj, g1⟩ <;>
      rcases getElem?_set_cases h2 with ⟨e3, e4⟩ | ⟨hj', g2⟩
    · rw [e1, e3]
    · exact absurd hd2 (hclean _ _ hj' g2)
    · exact absurd hd1 (hclean _ _ hj g1)
    · exact absurd hd1 (hclean _ _ hj g1)
  · rcases hr with h1 | h1
    · exact .inl h1
    · exact .inr ⟨i, q, by rw [ht]; simp [hlt], h1⟩

theorem step_fine {G : GetOps B} (hX : Copies X G I Clean Pend) {s s' : CState K V B.State X.Cell} {a : B.State} {i x e}
    (h : Fine X I Clean Pend s a) (hu : Undisturbed Clean s i) (hs : cstep X s i x = some (s', e))
    (hc : ∀ j c, e = .called j c → Gentle c) :
    ∃ a', Fine X I Clean Pend s' a' ∧ Accounts G a a' e := by
  have hl := step_inv h.locks hs
  have hall : ∀ p, s.threads[i]? = some p → p.Fine I Clean Pend s.cont a := fun p hp => h.all i p hp
  -- nobody has a written cell: there is nothing to write back
  have hsame : (∀ (j : Nat) r, s.threads[j]? = some r → ¬ r.Dirty Clean) → s.cont = a := by
    intro hn
    rcases h.rest with h1 | ⟨j, r, h1, h2⟩
    · exact h1
    · exact absurd h2 (hn j r h1)
  simp only [cstep] at hs
  split at hs
  · -- idle
    rename_i c hp
    simp only [Option.some.injEq, Prod.mk.injEq] at hs
    obtain ⟨rfl, rfl⟩ := hs
    exact ⟨a, h.set hl rfl hp rfl (hc _ _ rfl) Iff.rfl, rfl⟩
  · -- start
    rename_i c hp
    have hg : Gentle c := hall _ hp
    split at hs
    · split at hs
      all_goals
        simp only [Option.some.injEq, Prod.mk.injEq] at hs
        obtain ⟨rfl, rfl⟩ := hs
        exact ⟨a, h.set hl rfl hp rfl trivial Iff.rfl, rfl⟩
    · split at hs
      all_goals
        split at hs
        · simp at hs
        · simp only [Option.some.injEq, Prod.mk.injEq] at hs
          obtain ⟨rfl, rfl⟩ := hs
          exact ⟨a, h.set (i := i) (q := .locked c) hl (by simp) hp (by simp) hg Iff.rfl, rfl⟩
  · -- locked
    rename_i c hp
    have hg : Gentle c := hall _ hp
    split at hs
    · simp only [Option.some.injEq, Prod.mk.injEq] at hs
      obtain ⟨rfl, rfl⟩ := hs
      exact ⟨a, h.set hl rfl hp rfl trivial Iff.rfl, rfl⟩
    · split at hs
      · rename_i hwr
        split at hs
        · simp only [Option.some.injEq, Prod.mk.injEq] at hs
          obtain ⟨rfl, rfl⟩ := hs
          exact ⟨a, h.set hl rfl hp rfl trivial Iff.rfl, rfl⟩
        · simp only [Option.some.injEq, Prod.mk.injEq] at hs
          obtain ⟨rfl, rfl⟩ := hs
          -- a call that writes has the outer lock: no other thread has a cell that was written
          have hsa : s.cont = a := by
            refine hsame fun j r hr hd => ?_
            by_cases hj : j = i
            · subst hj; rw [hp] at hr; cases hr; exact hd
            · have hh : (Pc.locked c : Pc K V B.State X.Cell).hold ≠ none := by
                cases c with
                | op o => cases o <;> simp [Gentle, SCall.write, Pc.hold, SCall.holding, SCall.keeps] at hg hwr ⊢
                | _ => simp [SCall.write, Pc.hold, SCall.holding, SCall.keeps] at hwr ⊢
              cases r with
              | cell m k x =>
                have hf := h.all j _ hr
                cases m with
                | shared => exact hd (hf.2.1 rfl)
                | excl => exact hh (h.locks.outer hj hr hp rfl)
              | dropping k x => exact hd (hu j k x hj hr)
              | _ => exact hd
          refine ⟨a, h.set hl rfl hp rfl ⟨hg, h.inv, fun _ => ⟨rfl, hsa⟩, ?_⟩ Iff.rfl, rfl⟩
          rw [hsa]; exact Agree.refl _
      · split at hs
        · simp only [Option.some.injEq, Prod.mk.injEq] at hs
          obtain ⟨rfl, rfl⟩ := hs
          exact ⟨a, h.set hl rfl hp rfl trivial Iff.rfl, rfl⟩
        · rename_i hwr _
          simp only [Option.some.injEq, Prod.mk.injEq] at hs
          obtain ⟨rfl, rfl⟩ := hs
          exact ⟨a, h.set hl rfl hp rfl ⟨hg, h.inv, fun hw => absurd hw (by simpa using hwr), h.agree⟩ Iff.rfl, rfl⟩
  · -- inside
    rename_i c snap hp
    obtain ⟨hg, hI, hw, hag⟩ := hall _ hp
    split at hs
    · simp only [Option.some.injEq, Prod.mk.injEq] at hs
      obtain ⟨rfl, rfl⟩ := hs
      exact ⟨a, h.set (i := i) (q := .dead c.holding) hl (by simp [CState.setPc]) hp (by simp [CState.setPc]) trivial
        Iff.rfl, rfl⟩
    · rename_i r t he
      simp only [Option.some.injEq, Prod.mk.injEq] at hs
      obtain ⟨rfl, rfl⟩ := hs
      cases c with
      | capacity =>
        simp only [exec, Res.ok.injEq, Prod.mk.injEq] at he
        obtain ⟨rfl, rfl⟩ := he
        exact ⟨a, h.set hl (by simp [SCall.write]) hp rfl trivial Iff.rfl, by simp [Accounts, hag.capacity]⟩
      | size =>
        simp only [exec, Res.ok.injEq, Prod.mk.injEq] at he
        obtain ⟨rfl, rfl⟩ := he
        exact ⟨a, h.set hl (by simp [SCall.write]) hp rfl trivial Iff.rfl, by simp [Accounts, hag.size]⟩
      | get k =>
        obtain ⟨hst, hsa⟩ := hw rfl
        subst hst
        obtain ⟨o, h1, h2, h3, h4, h5, h6⟩ := hX.get _ k h.inv
        simp only [exec, h1, Res.ok_bind, Res.pure_eq, Res.ok.injEq, Prod.mk.injEq] at he
        obtain ⟨rfl, rfl⟩ := he
        refine ⟨a, h.set hl rfl hp rfl ?_ Iff.rfl, ⟨o, _, rfl, hsa ▸ h3, h5.symm⟩⟩
        cases o with
        | none => trivial
        | some p => exact ⟨(h6 p rfl).1, (h6 p rfl).2, hsa⟩
      | getMut k =>
        obtain ⟨hst, hsa⟩ := hw rfl
        subst hst
        obtain ⟨o, h1, h2, h3, h4, h5, h6⟩ := hX.get _ k h.inv
        simp only [exec, h2, Res.ok_bind, Res.pure_eq, Res.ok.injEq, Prod.mk.injEq] at he
        obtain ⟨rfl, rfl⟩ := he
        refine ⟨a, h.set hl rfl hp rfl ?_ Iff.rfl, ⟨o, _, rfl, hsa ▸ h4, h5.symm⟩⟩
        cases o with
        | none => trivial
        | some p => exact ⟨(h6 p rfl).1, (h6 p rfl).2, hsa⟩
      | op o =>
        cases o with
        | contains k =>
          obtain ⟨b, hb⟩ := hX.contains _ k hI
          have hb' := hag.contains _ _ hb
          simp only [exec, Block.observe, hb, Res.ok_bind, Res.pure_eq, Res.ok.injEq, Prod.mk.injEq] at he
          obtain ⟨rfl, rfl⟩ := he
          exact ⟨a, h.set hl (by simp [SCall.write]) hp rfl trivial Iff.rfl, ⟨_, rfl, by simp [Block.observe, hb']⟩⟩
        | push x =>
          obtain ⟨hst, hsa⟩ := hw rfl
          subst hst
          subst hsa
          simp only [exec, Block.observe] at he
          cases hx : B.push s.cont x with
          | panic => simp [hx] at he
          | ok y =>
            obtain ⟨out, t'⟩ := y
            simp only [hx, Res.ok_bind, Res.pure_eq, Res.ok.injEq, Prod.mk.injEq] at he
            obtain ⟨rfl, rfl⟩ := he
            have hI2 := hX.push _ _ _ _ h.inv hx
            refine ⟨t', h.alone hl (by simpa [SCall.write] using hI2) hI2 hp rfl rfl trivial hu ?_
              (.inl (by simp [SCall.write])) (by simpa [SCall.write] using Agree.refl _),
              ⟨_, rfl, by simp [Block.observe, hx]⟩⟩
            intro j c snap' hj hjt
            have := h.locks.inner (Ne.symm hj) hp hjt (by simp [Pc.wi, SCall.write])
            simp only [Pc.wi, Pc.ri] at this
            obtain ⟨a1, a2⟩ := this
            cases hcw : c.write <;> simp [hcw] at a1 a2
        | _ => exact hg.elim
  · -- leaving
    rename_i c r hp
    have hg := hall _ hp
    split at hs
    · rename_i k p
      simp only [Option.some.injEq, Prod.mk.injEq] at hs
      obtain ⟨rfl, rfl⟩ := hs
      obtain ⟨g1, g2, g3⟩ := hg
      exact ⟨a, h.set (i := i) (q := .cell .shared k p) hl (by simp) hp (by simp)
        ⟨by rw [← g3]; exact g2, fun _ => g1, fun _ => g3⟩ (by simp [Pc.Dirty, g1]), rfl⟩
    · rename_i k p
      simp only [Option.some.injEq, Prod.mk.injEq] at hs
      obtain ⟨rfl, rfl⟩ := hs
      obtain ⟨g1, g2, g3⟩ := hg
      exact ⟨a, h.set (i := i) (q := .cell .excl k p) hl (by simp) hp (by simp)
        ⟨by rw [← g3]; exact g2, fun _ => g1, fun _ => g3⟩ (by simp [Pc.Dirty, g1]), rfl⟩
    · simp only [Option.some.injEq, Prod.mk.injEq] at hs
      obtain ⟨rfl, rfl⟩ := hs
      exact ⟨a, h.set (i := i) (q := .closing c r) hl (by simp) hp (by simp) trivial Iff.rfl, rfl⟩
  · -- closing
    rename_i c r hp
    simp only [Option.some.injEq, Prod.mk.injEq] at hs
    obtain ⟨rfl, rfl⟩ := hs
    exact ⟨a, h.set (i := i) (q := .idle) hl (by simp) hp (by simp) trivial Iff.rfl, rfl⟩
  · -- deref
    rename_i m k p hp
    have hg := hall _ hp
    simp only [Option.some.injEq, Prod.mk.injEq] at hs
    obtain ⟨rfl, rfl⟩ := hs
    obtain ⟨v, h1, h2⟩ := hX.deref _ k p a h.inv hg.1
    exact ⟨a, h, ⟨v, h1, h2⟩⟩
  · -- write
    rename_i k p v hp
    have hg := hall _ hp
    simp only [Option.some.injEq, Prod.mk.injEq] at hs
    obtain ⟨rfl, rfl⟩ := hs
    obtain ⟨p', a', u, h1, h2, h3, h4, h5, h6⟩ := hX.write _ k p a v h.inv hg.1
    rw [h1] at hl ⊢
    exact ⟨a', h.alone hl h.inv h4 hp rfl rfl ⟨h3, fun h0 => (by cases h0), fun h0 => absurd h0 h2⟩ hu
      (fun _ _ _ _ _ => h6) (.inr h2) (h.agree.trans h6), ⟨u, h5⟩⟩
  · -- dropCell
    rename_i m k p hp
    have hg := hall _ hp
    simp only [Option.some.injEq, Prod.mk.injEq] at hs
    obtain ⟨rfl, rfl⟩ := hs
    exact ⟨a, h.set (i := i) (q := .dropping k p) hl (by simp) hp (by simp) (.inr hg.1) Iff.rfl, rfl⟩
  · -- dropping
    rename_i k p hp
    have hlt : i < s.threads.length := (List.getElem?_eq_some_iff.1 hp).1
    by_cases hcl : Clean p
    · rw [hX.clean _ _ hcl] at hs
      simp only [Option.some.injEq, Prod.mk.injEq] at hs
      obtain ⟨rfl, rfl⟩ := hs
      exact ⟨a, h.set hl rfl hp rfl trivial (by simp [Pc.Dirty, hcl]), rfl⟩
    · have hg : Pend s.cont k p a := (hall _ hp).resolve_left hcl
      rw [hX.drop _ _ _ _ h.inv hg] at hs
      simp only [Option.some.injEq, Prod.mk.injEq] at hs
      obtain ⟨rfl, rfl⟩ := hs
      refine ⟨a, ⟨hl, h.inv', h.inv', Agree.refl _, ?_, ?_, .inl rfl⟩, rfl⟩
      · intro j r hr
        rcases getElem?_set_cases hr with ⟨rfl, rfl⟩ | ⟨hj, hr⟩
        · trivial
        · have hf := h.all j r hr
          have hnd : ¬ r.Dirty Clean := fun hd => hj (h.one _ _ _ _ hr hp hd hcl)
          show r.Fine I Clean Pend a a
          match r, hf, hnd with
          | .idle, _, _ => trivial
          | .start _, hg, _ => exact hg
          | .locked _, hg, _ => exact hg
          | .inside c snap, hg, _ =>
            exact ⟨hg.1, hg.2.1, fun hw => ⟨(hg.2.2.1 hw).1.trans (hg.2.2.1 hw).2, rfl⟩, hg.2.2.2⟩
          | .leaving c x, hg, _ =>
            match c, x, hg with
            | .get k, .cell (some p), hg => exact ⟨hg.1, hg.2.2 ▸ hg.2.1, rfl⟩
            | .getMut k, .cell (some p), hg => exact ⟨hg.1, hg.2.2 ▸ hg.2.1, rfl⟩
            | .get k, .cell none, _ => trivial
            | .getMut k, .cell none, _ => trivial
            | .get k, .num _, _ => trivial
            | .getMut k, .num _, _ => trivial
            | .get k, .obs _, _ => trivial
            | .getMut k, .obs _, _ => trivial
            | .capacity, _, _ => trivial
            | .size, _, _ => trivial
            | .op _, _, _ => trivial
          | .closing _ _, _, _ => trivial
          | .cell m k x, hg, hnd =>
            have hx : Clean x := Classical.not_not.1 hnd
            have he := hg.2.2 hx
            exact ⟨he ▸ hg.1, fun _ => hx, fun _ => rfl⟩
          | .dropping k x, _, hnd => exact .inl (Classical.not_not.1 hnd)
          | .dead _, _, _ => trivial
      · intro j j' r r' h1 h2 hd1 hd2
        rcases getElem?_set_cases h1 with ⟨e1, e2⟩ | ⟨hj, g1⟩ <;>
          rcases getElem?_set_cases h2 with ⟨e3, e4⟩ | ⟨hj', g2⟩
        · rw [e1, e3]
        · rw [e2] at hd1; exact hd1.elim
        · rw [e4] at hd2; exact hd2.elim
        · exact h.one _ _ _ _ g1 g2 hd1 hd2
  · -- dead
    rename_i m hp
    simp only [Option.some.injEq, Prod.mk.injEq] at hs
    obtain ⟨rfl, rfl⟩ := hs
    exact ⟨a, h.set hl rfl hp rfl trivial Iff.rfl, rfl⟩
  · simp at hs

/-- Runs in which no other thread takes a step while a written cell is being dropped. -/
inductive QRun (X : Cells B) (Clean : X.Cell → Prop) (s₀ : CState K V B.State X.Cell) :
    List (CEv K V X.Cell) → CState K V B.State X.Cell → Prop where
  | nil : QRun X Clean s₀ [] s₀
  | snoc {l s s' i a e} : QRun X Clean s₀ l s → Undisturbed Clean s i → cstep X s i a = some (s', e) →
      QRun X Clean s₀ (l ++ [e]) s'

theorem QRun.run {s₀ s : CState K V B.State X.Cell} {l} (h : QRun X Clean s₀ l s) : CRun X s₀ l s := by
  induction h with
  | nil => exact .nil
  | snoc _ _ hs ih => exact ih.snoc hs

theorem new_fine {s₀ : B.State} (h0 : I s₀) (n : Nat) :
    Fine X I Clean Pend (.new s₀ n : CState K V B.State X.Cell) s₀ := by
  have hid : ∀ (j : Nat) (p : Pc K V B.State X.Cell), (CState.new s₀ n : CState K V B.State X.Cell).threads[j]? = some p →
      p = .idle := by
    intro j p hp
    have := List.mem_of_getElem? hp
    simp only [CState.new, List.mem_replicate] at this
    exact this.2
  refine ⟨new_inv _ _, h0, h0, Agree.refl _, ?_, ?_, .inl rfl⟩
  · intro j p hp; rw [hid j p hp]; trivial
  · intro i j p q hp hq hd; rw [hid i p hp] at hd; exact hd.elim

/-! ## The cells of a `Compressed` -/

section Compressed

open Compressed

variable {z : Lz4} {cd : VecCodec (K × V)}

/-- Elements of a key can be serialised, or not, and take the same room, whatever the value. -/
def SameSize (cd : VecCodec (K × V)) : Prop := ∀ k v w, (cd.enc (k, v)).map List.length = (cd.enc (k, w)).map List.length

/-- `c` with the elements `l` instead of its own. -/
def put (z : Lz4) (cd : VecCodec (K × V)) (c : Compressed) (l : List (K × V)) : Compressed :=
  { c with stream := { c.stream with vec := if l = [] then [] else z.comp ((cd.encode l).getD []) } }

theorem put_of_holds {c : Compressed} {l : List (K × V)} (h : Compressed.Holds z cd c l) : put z cd c l = c := by
  obtain ⟨-, h⟩ := h
  unfold put
  by_cases hl : l = []
  · rw [if_pos hl] at h ⊢; rw [← h]
  · rw [if_neg hl] at h ⊢
    obtain ⟨b, h1, h2, -⟩ := h
    rw [h1, Option.getD_some, ← h2]

theorem put_put (c : Compressed) (l l' : List (K × V)) : put z cd (put z cd c l) l' = put z cd c l' := rfl

theorem put_eq {c c' : Compressed} {l : List (K × V)} (h : Compressed.Holds z cd c' l) :
    ({ c with stream := { c.stream with vec := c'.stream.vec } } : Compressed) = put z cd c l := by
  have h' := put_of_holds h
  have : c'.stream.vec = (if l = [] then [] else z.comp ((cd.encode l).getD [])) := by
    conv => lhs; rw [← h']
    rfl
  unfold put
  rw [this]

/-- The elements of a cell: those stored but for the value of the key. -/
theorem holds_set (hs : SameSize cd) {c : Compressed} {l : List (K × V)} (h : Compressed.Holds z cd c l) {i : Nat} {e : K × V}
    (he : l[i]? = some e) (v : V) :
    c.rewrite z cd (l.set i (e.1, v)) ≠ .panic ∧ Compressed.Holds z cd (put z cd c (l.set i (e.1, v))) (l.set i (e.1, v)) ∧
    (∀ c', c.rewrite z cd (l.set i (e.1, v)) = .ok c' →
      ({ c with stream := { c.stream with vec := c'.stream.vec } } : Compressed) = put z cd c (l.set i (e.1, v))) ∧
    total cd.size (l.set i (e.1, v)) = total cd.size l := by
  obtain ⟨r, r1, r2⟩ := set_perm he (e.1, v)
  have hmem : e ∈ l := r1.symm.subset (by simp)
  have hss := hs e.1 e.2 v
  have hen : cd.enc (e.1, v) ≠ none := by
    intro h0
    have := h.1 e hmem
    rw [h0] at hss
    cases h1 : cd.enc e with
    | none => exact this h1
    | some b => rw [show (e.1, e.2) = e from rfl, h1] at hss; simp at hss
  have hsz : cd.size (e.1, v) = cd.size e := by
    unfold VecCodec.size
    cases h1 : cd.enc e with
    | none => exact absurd h1 (h.1 e hmem)
    | some b =>
      rw [show (e.1, e.2) = e from rfl, h1] at hss
      cases h2 : cd.enc (e.1, v) with
      | none => exact absurd h2 hen
      | some b' => rw [h2] at hss; simpa using hss.symm
  have t1 := total_perm cd.size r1
  have t2 := total_perm cd.size r2
  simp only [total_cons] at t1 t2
  have htot : total cd.size (l.set i (e.1, v)) = total cd.size l := by omega
  have hl : l ≠ [] := List.ne_nil_of_mem hmem
  obtain ⟨b, -, -, b3, b4⟩ := h.readBytes
  rw [if_neg hl] at b3
  obtain ⟨c', g1, g2, g3⟩ := write_spec (z := z) c (l.set i (e.1, v))
    (fun x hx => by
      rcases List.mem_cons.1 (r2.subset hx) with rfl | hx
      · exact hen
      · exact h.1 x (r1.symm.subset (by simp [hx]))) (by right; omega)
  refine ⟨by rw [g1]; simp, ⟨g2.1, ?_⟩, ?_, htot⟩
  · have hg := g2.2
    rw [← put_of_holds g2] at hg
    simp only [put] at hg ⊢
    rw [g3] at hg
    exact hg
  · intro c'' hc
    rw [g1] at hc
    cases hc
    exact put_eq g2

theorem find_eq [DecidableEq K] (l : List (K × V)) (k : K) :
    (l.find? fun e => decide (e.1 = k)).map Prod.snd = (findKey l k).bind fun i => l[i]?.map Prod.snd := by
  unfold findKey
  induction l with
  | nil => rfl
  | cons e l ih =>
    by_cases h : e.1 = k
    · simp [List.findIdx?_cons, h]
    · simp only [List.find?_cons, h, decide_false, List.findIdx?_cons]
      rw [ih]
      cases List.findIdx? (fun e => decide (e.1 = k)) l <;> simp

/-- What the cell `p` obtained for `k` makes of the container `s` when it is dropped. -/
def CompressedPend [DecidableEq K] (z : Lz4) (cd : VecCodec (K × V)) (s : Compressed) (k : K)
    (p : List (K × V) × Nat × Bool) (a : Compressed) : Prop :=
  ∃ l i v, Compressed.Holds z cd s l ∧ findKey l k = some i ∧ l[i]? = some (k, v) ∧
    ((p = (l, i, false) ∧ a = s) ∨ ∃ w, p = (l.set i (k, w), i, true) ∧ a = put z cd s (l.set i (k, w)))

theorem agree_put [LinearOrder K] (hlaw : cd.Law) (srt srtU : Sorter (K × V)) {c c' : Compressed} {l : List (K × V)}
    {i : Nat} {k : K} {v w : V} (h : Compressed.Holds z cd c l) (he : l[i]? = some (k, v))
    (h' : Compressed.Holds z cd c' (l.set i (k, w))) (hc : c'.capacity = c.capacity)
    (ht : total cd.size (l.set i (k, w)) = total cd.size l) :
    Agree (B := compressed z cd srt srtU) c c' := by
  refine ⟨hc.symm, ?_, ?_⟩
  · show c.size z = c'.size z
    rw [h.size, h'.size, ht]
    have : l.set i (k, w) = [] ↔ l = [] := by simp
    by_cases hl : l = []
    · rw [if_pos hl, if_pos (this.2 hl)]
    · rw [if_neg hl, if_neg (mt this.1 hl)]
  · intro k' x hx
    replace hx : Res.ok (c.contains z cd k', c) = .ok (x, c) := hx
    show Res.ok (c'.contains z cd k', c') = .ok (x, c')
    simp only [Res.ok.injEq, Prod.mk.injEq, and_true] at hx ⊢
    rw [← hx]
    unfold Compressed.contains
    rw [h.read hlaw, h'.read hlaw, ← modify_eq_set he]
    exact any_modify l i w k'

theorem compressed_copies [LinearOrder K] (hlaw : cd.Law) (hs : SameSize cd) (srt srtU : Sorter (K × V)) :
    Copies (compressedHandles z cd srt srtU) (compressedGet z cd srt srtU) (Compressed.Inv z cd)
      (fun p => p.2.2 = false) (CompressedPend z cd) where
  get := by
    rintro (s : Compressed) k ⟨l, h⟩
    have hr := h.read hlaw
    refine ⟨(findKey l k).map fun i => (l, i, false), ?_, ?_, ?_, ?_, ?_, ?_⟩
    · simp [compressedHandles, hr]
    · simp [compressedHandles, hr]
    · simp only [compressedGet, Compressed.get, hr, compressedHandles]
      rw [find_eq]
      cases findKey l k <;> rfl
    · simp only [compressedGet, Compressed.getMut, hr, compressedHandles]
      cases hk : findKey l k with
      | none => rfl
      | some i =>
        obtain ⟨v, hv⟩ := findKey_some hk
        obtain ⟨g1, -, g3, -⟩ := holds_set hs h hv v
        simp only [hv, Res.unwrap, id, Res.ok_bind, Option.map_some, Option.bind_some]
        cases hw : s.rewrite z cd (l.set i (k, v)) with
        | panic => exact absurd hw g1
        | ok c' =>
          have := g3 c' hw
          rw [set_same hv, put_of_holds h] at this
          simp only [Res.ok_bind, Res.pure_eq]
          rw [this]; rfl
    · cases hk : findKey l k with
      | none => rfl
      | some i =>
        obtain ⟨v, hv⟩ := findKey_some hk
        simp [compressedHandles, hv]
    · intro p hp
      obtain ⟨i, hk, rfl⟩ := Option.map_eq_some_iff.1 hp
      obtain ⟨v, hv⟩ := findKey_some hk
      exact ⟨rfl, l, i, v, h, hk, hv, .inl ⟨rfl, rfl⟩⟩
  clean := by
    intro s p hp
    show (if p.2.2 = true then _ else _) = _
    rw [hp]; rfl
  drop := by
    rintro (s : Compressed) k p a - ⟨l, i, v, h, hk, hv, ⟨rfl, rfl⟩ | ⟨w, rfl, rfl⟩⟩
    · rfl
    · obtain ⟨g1, -, g3, -⟩ := holds_set hs h hv w
      simp only [compressedHandles]
      cases hw : s.rewrite z cd (l.set i (k, w)) with
      | panic => exact absurd hw g1
      | ok c' => simp only [Res.ok_bind, Res.pure_eq]; rw [g3 c' hw]; rfl
  deref := by
    rintro (s : Compressed) k p a - ⟨l, i, v, h, hk, hv, ⟨rfl, rfl⟩ | ⟨w, rfl, rfl⟩⟩
    · refine ⟨v, by simp [compressedHandles, hv], ?_⟩
      simp only [compressedGet, Compressed.get, h.read hlaw]
      rw [find_eq, hk, Option.bind_some, hv]; rfl
    · have hlt : i < l.length := (List.getElem?_eq_some_iff.1 hv).1
      obtain ⟨-, g2, -, -⟩ := holds_set hs h hv w
      refine ⟨w, by simp [compressedHandles, hlt], ?_⟩
      simp only [compressedGet, Compressed.get, g2.read hlaw]
      rw [find_eq, ← modify_eq_set hv, findKey_modify, hk, Option.bind_some, modify_eq_set hv]
      rw [show (l.set i (k, w))[i]? = some (k, w) by simp [hlt]]; rfl
  write := by
    rintro (s : Compressed) k p a x - ⟨l, i, v, h, hk, hv, hp⟩
    have hlt : i < l.length := (List.getElem?_eq_some_iff.1 hv).1
    obtain ⟨-, g2, -, g4⟩ := holds_set hs h hv x
    -- the elements of the cell
    obtain ⟨l', v', hp1, ha, hk', hv', hset⟩ : ∃ l' v', (p.1 = l' ∧ p.2.1 = i) ∧ Compressed.Holds z cd a l' ∧
        findKey l' k = some i ∧ l'[i]? = some (k, v') ∧ (l'.set i (k, x) = l.set i (k, x) ∧
          put z cd a (l.set i (k, x)) = put z cd s (l.set i (k, x)) ∧ a.capacity = s.capacity) := by
      rcases hp with ⟨rfl, rfl⟩ | ⟨w, rfl, rfl⟩
      · exact ⟨l, v, ⟨rfl, rfl⟩, h, hk, hv, rfl, rfl, rfl⟩
      · obtain ⟨-, q2, -, -⟩ := holds_set hs h hv w
        refine ⟨l.set i (k, w), w, ⟨rfl, rfl⟩, q2, ?_, by simp [hlt], by simp, put_put _ _ _, rfl⟩
        rw [← modify_eq_set hv, findKey_modify, hk]
    obtain ⟨q1, q2, q3, q4⟩ := holds_set hs ha hv' x
    dsimp only at q1 q2 q3 q4
    refine ⟨(l.set i (k, x), i, true), put z cd s (l.set i (k, x)), v', ?_, by simp, ?_, ⟨_, g2⟩, ?_, ?_⟩
    · simp only [compressedHandles, hp1.1, hp1.2]
      rw [modify_eq_set hv', hset.1]
    · exact ⟨l, i, v, h, hk, hv, .inr ⟨x, rfl, rfl⟩⟩
    · simp only [compressedGet, Compressed.getMut, ha.read hlaw, hk', hv', Res.unwrap, Res.ok_bind]
      cases hw : a.rewrite z cd (l'.set i (k, x)) with
      | panic => exact absurd hw q1
      | ok c' =>
        simp only [Res.ok_bind, Res.pure_eq]
        rw [q3 c' hw, hset.1, hset.2.1]; rfl
    · refine agree_put hlaw srt srtU ha hv' (w := x) ?_ hset.2.2.symm q4
      rw [hset.1]; exact g2
  contains s k _ := ⟨_, rfl⟩
  push := by
    rintro (s : Compressed) l out s' ⟨l0, h⟩ hp
    obtain ⟨out', c', l', h1, h2, -⟩ := push_spec hlaw srtU h l
    replace hp : s.push z cd srtU l = .ok (out, s') := hp
    rw [h1] at hp
    cases hp
    exact ⟨l', h2⟩

end Compressed

end Byoc.SeqCells
