import Verif.Model.Handles
import Verif.Proofs.Lock

/-! Invariants of reference counted handles. -/

namespace Byoc.Handles

open Lock

/-- What a handle can be. -/
def Handle.Ok (h : Handle) : Prop :=
  match h.phase with
  | .live => h.th = ⟨.idle, 1, false⟩
  | .cloning | .keeping => h.th = ⟨.load .shared true, 1, false⟩ ∨
      ∃ c, h.th = ⟨.cas .shared true c, 1, false⟩
  | .unlocking => h.th = ⟨.unlock .shared, 0, false⟩ ∨ ∃ c, h.th = ⟨.unlockLoop .shared c, 0, false⟩
  | .trying => h.th = ⟨.load .excl false, 0, false⟩ ∨ ∃ c, h.th = ⟨.cas .excl false c, 0, false⟩
  | .gone => h.th = ⟨.idle, 0, false⟩ ∨ h.th = ⟨.idle, 0, true⟩

def extra (e : HEv) : Nat := if e = .cloned ∨ e = .kept then 1 else 0
def rem (e : HEv) : Nat := if e = .removed then 1 else 0

/-- The result of the atomic step taken inside `run`. -/
theorem run_shared {w w' : Nat} {t t' : Th} {e sp}
    (ht : t = ⟨.load .shared true, 1, false⟩ ∨ ∃ c, t = ⟨.cas .shared true c, 1, false⟩)
    (hs : stepTh w t (.run sp) = some (w', t', e)) :
    (e = .acquired .shared ∧ t' = ⟨.idle, 2, false⟩) ∨
    (e = .silent ∧ (t' = ⟨.load .shared true, 1, false⟩ ∨ ∃ c, t' = ⟨.cas .shared true c, 1, false⟩)) ∨
    (e = .poisoned ∧ t' = ⟨.idle, 1, false⟩) := by
  rcases ht with rfl | ⟨c, rfl⟩
  · simp only [stepTh] at hs
    repeat' split at hs
    all_goals (first | (exfalso; simp_all; done) | skip)
    all_goals simp at hs
    all_goals obtain ⟨rfl, rfl, rfl⟩ := hs
    all_goals simp
  · simp only [stepTh, casWeak] at hs
    split at hs
    all_goals simp at hs
    all_goals obtain ⟨rfl, rfl, rfl⟩ := hs
    all_goals simp

theorem run_unlock {w w' : Nat} {t t' : Th} {e sp}
    (ht : t = ⟨.unlock .shared, 0, false⟩ ∨ ∃ c, t = ⟨.unlockLoop .shared c, 0, false⟩)
    (hs : stepTh w t (.run sp) = some (w', t', e)) :
    (e = .released ∧ t' = ⟨.idle, 0, false⟩) ∨
    (e = .silent ∧ ∃ c, t' = ⟨.unlockLoop .shared c, 0, false⟩) := by
  rcases ht with rfl | ⟨c, rfl⟩
  · simp only [stepTh, Option.some.injEq, Prod.mk.injEq] at hs
    obtain ⟨_, rfl, rfl⟩ := hs
    simp
  · simp only [stepTh, casWeak] at hs
    split at hs
    · simp at hs; obtain ⟨rfl, rfl, rfl⟩ := hs; simp
    · split at hs <;> simp at hs <;> obtain ⟨rfl, rfl, rfl⟩ := hs <;> simp

theorem run_try {w w' : Nat} {t t' : Th} {e sp}
    (ht : t = ⟨.load .excl false, 0, false⟩ ∨ ∃ c, t = ⟨.cas .excl false c, 0, false⟩)
    (hs : stepTh w t (.run sp) = some (w', t', e)) :
    (e = .acquired .excl ∧ t' = ⟨.idle, 0, true⟩) ∨
    (e = .silent ∧ (∃ c, t' = ⟨.cas .excl false c, 0, false⟩)) ∨
    ((e = .wouldBlock ∨ e = .poisoned) ∧ t' = ⟨.idle, 0, false⟩) := by
  rcases ht with rfl | ⟨c, rfl⟩
  · simp only [stepTh] at hs
    repeat' split at hs
    all_goals (first | (exfalso; simp_all; done) | skip)
    all_goals simp at hs
    all_goals obtain ⟨rfl, rfl, rfl⟩ := hs
    all_goals simp
  · simp only [stepTh, casWeak] at hs
    split at hs
    all_goals simp at hs
    all_goals obtain ⟨rfl, rfl, rfl⟩ := hs
    all_goals simp

theorem stepHandle_inv {w w' : Nat} {h h' : Handle} {a e} {r x : Nat} (hok : h.Ok) (hl : h.th.Loc)
    (hw : Word w (r + h.th.sharedCount) (x + h.th.exclCount))
    (hs : stepHandle w h a = some (w', h', e))
    (hb : r + h'.th.sharedCount + extra e < 2 ^ 62) :
    h'.Ok ∧ h'.th.Loc ∧ Word w' (r + h'.th.sharedCount + extra e) (x + h'.th.exclCount) ∧
      h'.th.exclCount = h.th.exclCount + rem e := by
  obtain ⟨t, ph⟩ := h
  cases a with
  | clone =>
    simp only [stepHandle, Option.ite_none_right_eq_some, Option.map_eq_some_iff] at hs
    obtain ⟨rfl, ⟨w1, t1, e1⟩, h1, h2⟩ := hs
    simp at h2
    obtain ⟨rfl, rfl, rfl⟩ := h2
    simp only [Handle.Ok] at hok
    subst hok
    have := stepTh_inv hl hw h1 (by simpa [extra] using hb)
    simp [stepTh] at h1
    obtain ⟨rfl, rfl, rfl⟩ := h1
    exact ⟨by simp [Handle.Ok], this.1, by simpa [extra] using this.2,
      by simp [Th.exclCount, rem]⟩
  | doNotDelete =>
    simp only [stepHandle, Option.ite_none_right_eq_some, Option.map_eq_some_iff] at hs
    obtain ⟨rfl, ⟨w1, t1, e1⟩, h1, h2⟩ := hs
    simp at h2
    obtain ⟨rfl, rfl, rfl⟩ := h2
    simp only [Handle.Ok] at hok
    subst hok
    have := stepTh_inv hl hw h1 (by simpa [extra] using hb)
    simp [stepTh] at h1
    obtain ⟨rfl, rfl, rfl⟩ := h1
    exact ⟨by simp [Handle.Ok], this.1, by simpa [extra] using this.2,
      by simp [Th.exclCount, rem]⟩
  | drop =>
    simp only [stepHandle, Option.ite_none_right_eq_some, Option.map_eq_some_iff] at hs
    obtain ⟨rfl, ⟨w1, t1, e1⟩, h1, h2⟩ := hs
    simp at h2
    obtain ⟨rfl, rfl, rfl⟩ := h2
    simp only [Handle.Ok] at hok
    subst hok
    have := stepTh_inv hl hw h1 (by simpa [extra] using hb)
    simp [stepTh] at h1
    obtain ⟨rfl, rfl, rfl⟩ := h1
    exact ⟨by simp [Handle.Ok], this.1, by simpa [extra] using this.2,
      by simp [Th.exclCount, rem]⟩
  | panicDrop =>
    simp only [stepHandle, Option.ite_none_right_eq_some, Option.map_eq_some_iff] at hs
    obtain ⟨rfl, ⟨w1, t1, e1⟩, h1, h2⟩ := hs
    simp at h2
    obtain ⟨rfl, rfl, rfl⟩ := h2
    have := stepTh_inv hl hw h1 (by simpa [extra] using hb)
    simp only [stepTh, Option.ite_none_right_eq_some, Option.some.injEq, Prod.mk.injEq] at h1
    obtain ⟨_, rfl, rfl, rfl⟩ := h1
    exact ⟨hok, this.1, by simpa [extra] using this.2, by simp [rem]⟩
  | run sp =>
    simp only [stepHandle] at hs
    cases hst : stepTh w t (.run sp) with
    | none => simp [hst] at hs
    | some res =>
      obtain ⟨w1, t1, e1⟩ := res
      simp only [hst] at hs
      cases ph with
      | live => simp at hs
      | gone => simp at hs
      | cloning =>
        simp only [Handle.Ok] at hok
        rcases run_shared hok hst with ⟨rfl, rfl⟩ | ⟨rfl, h1⟩ | ⟨rfl, rfl⟩
        · simp at hs
          obtain ⟨rfl, rfl, rfl⟩ := hs
          have := stepTh_inv hl hw hst
            (by simp [Th.sharedCount, extra] at hb ⊢; omega)
          refine ⟨by simp [Handle.Ok], by simp [Th.Loc], ?_, ?_⟩
          · simpa [Th.sharedCount, Th.exclCount, extra, Nat.add_assoc] using this.2
          · rcases hok with rfl | ⟨c, rfl⟩ <;> simp [Th.exclCount, rem]
        · simp at hs
          obtain ⟨rfl, rfl, rfl⟩ := hs
          have := stepTh_inv hl hw hst (by simpa [extra] using hb)
          refine ⟨by simpa [Handle.Ok] using h1, this.1, by simpa [extra] using this.2, ?_⟩
          rcases hok with rfl | ⟨c, rfl⟩ <;> rcases h1 with rfl | ⟨d, rfl⟩ <;>
            simp [Th.exclCount, rem]
        · simp at hs
          obtain ⟨rfl, rfl, rfl⟩ := hs
          have := stepTh_inv hl hw hst (by simpa [extra] using hb)
          refine ⟨by simp [Handle.Ok], this.1, by simpa [extra] using this.2, ?_⟩
          rcases hok with rfl | ⟨c, rfl⟩ <;> simp [Th.exclCount, rem]
      | keeping =>
        simp only [Handle.Ok] at hok
        rcases run_shared hok hst with ⟨rfl, rfl⟩ | ⟨rfl, h1⟩ | ⟨rfl, rfl⟩
        · simp at hs
          obtain ⟨rfl, rfl, rfl⟩ := hs
          have := stepTh_inv hl hw hst
            (by simp [Th.sharedCount, extra] at hb ⊢; omega)
          refine ⟨by simp [Handle.Ok], by simp [Th.Loc], ?_, ?_⟩
          · simpa [Th.sharedCount, Th.exclCount, extra, Nat.add_assoc] using this.2
          · rcases hok with rfl | ⟨c, rfl⟩ <;> simp [Th.exclCount, rem]
        · simp at hs
          obtain ⟨rfl, rfl, rfl⟩ := hs
          have := stepTh_inv hl hw hst (by simpa [extra] using hb)
          refine ⟨by simpa [Handle.Ok] using h1, this.1, by simpa [extra] using this.2, ?_⟩
          rcases hok with rfl | ⟨c, rfl⟩ <;> rcases h1 with rfl | ⟨d, rfl⟩ <;>
            simp [Th.exclCount, rem]
        · simp at hs
          obtain ⟨rfl, rfl, rfl⟩ := hs
          have := stepTh_inv hl hw hst (by simpa [extra] using hb)
          refine ⟨by simp [Handle.Ok], this.1, by simpa [extra] using this.2, ?_⟩
          rcases hok with rfl | ⟨c, rfl⟩ <;> simp [Th.exclCount, rem]
      | unlocking =>
        simp only [Handle.Ok] at hok
        rcases run_unlock hok hst with ⟨rfl, rfl⟩ | ⟨rfl, c', rfl⟩
        · simp at hs
          obtain ⟨rfl, rfl, rfl⟩ := hs
          have := stepTh_inv hl hw hst (by simpa [extra, Th.sharedCount] using hb)
          refine ⟨by simp [Handle.Ok], by simp [Th.Loc],
            by simpa [extra, Th.sharedCount, Th.exclCount] using this.2, ?_⟩
          rcases hok with rfl | ⟨c, rfl⟩ <;> simp [Th.exclCount, rem]
        · simp at hs
          obtain ⟨rfl, rfl, rfl⟩ := hs
          have := stepTh_inv hl hw hst (by simpa [extra, Th.sharedCount] using hb)
          refine ⟨by simp [Handle.Ok], this.1,
            by simpa [extra, Th.sharedCount, Th.exclCount] using this.2, ?_⟩
          rcases hok with rfl | ⟨c, rfl⟩ <;> simp [Th.exclCount, rem]
      | trying =>
        simp only [Handle.Ok] at hok
        rcases run_try hok hst with ⟨rfl, rfl⟩ | ⟨rfl, c', rfl⟩ | ⟨he, rfl⟩
        · simp at hs
          obtain ⟨rfl, rfl, rfl⟩ := hs
          have := stepTh_inv hl hw hst (by simpa [extra, Th.sharedCount] using hb)
          refine ⟨by simp [Handle.Ok], this.1, by simpa [extra] using this.2, ?_⟩
          rcases hok with rfl | ⟨c, rfl⟩ <;> simp [Th.exclCount, rem]
        · simp at hs
          obtain ⟨rfl, rfl, rfl⟩ := hs
          have := stepTh_inv hl hw hst (by simpa [extra, Th.sharedCount] using hb)
          refine ⟨by simp [Handle.Ok], this.1, by simpa [extra] using this.2, ?_⟩
          rcases hok with rfl | ⟨c, rfl⟩ <;> simp [Th.exclCount, rem]
        · have hs' : (w1, (⟨⟨.idle, 0, false⟩, .gone⟩ : Handle), HEv.dropped) = (w', h', e) := by
            rcases he with rfl | rfl <;> simpa using hs
          simp at hs'
          obtain ⟨rfl, rfl, rfl⟩ := hs'
          have := stepTh_inv hl hw hst (by simpa [extra, Th.sharedCount] using hb)
          refine ⟨by simp [Handle.Ok], this.1, by simpa [extra] using this.2, ?_⟩
          rcases hok with rfl | ⟨c, rfl⟩ <;> simp [Th.exclCount, rem]

def FState.excl (s : FState) : Nat := (s.handles.map fun h => h.th.exclCount).sum

structure FInv (s : FState) : Prop where
  ok : ∀ h ∈ s.handles, h.Ok ∧ h.th.Loc
  word : Word s.word s.shared s.excl
  removed : s.excl = s.removed

theorem new_finv : FInv FState.new := by
  refine ⟨?_, ?_, rfl⟩
  · intro h hh
    simp [FState.new] at hh
    subst hh
    simp [Handle.new, Handle.Ok, Th.Loc]
  · exact ⟨by decide, .inl ⟨rfl, rfl, by decide⟩⟩

theorem fstep_eq {s s' : FState} {i a e} (h : fstep s i a = some (s', e)) :
    ∃ t w' t', s.handles[i]? = some t ∧ stepHandle s.word t a = some (w', t', e) ∧
      s' = ⟨w', s.handles.set i t' ++ (if e = .cloned then [Handle.new] else []),
        s.kept + (if e = .kept then 1 else 0), s.removed + (if e = .removed then 1 else 0)⟩ := by
  unfold fstep at h
  split at h
  · simp at h
  · rename_i t ht
    simp only [Option.map_eq_some_iff, Prod.mk.injEq] at h
    obtain ⟨⟨w', t', e'⟩, h1, h2, h3⟩ := h
    subst h3
    exact ⟨t, w', t', ht, h1, h2.symm⟩

theorem fstep_sums {s : FState} {i : Nat} {t t' : Handle} {w' : Nat} {e : HEv}
    (ht : s.handles[i]? = some t) :
    let s' : FState := ⟨w', s.handles.set i t' ++ (if e = .cloned then [Handle.new] else []),
        s.kept + (if e = .kept then 1 else 0), s.removed + (if e = .removed then 1 else 0)⟩
    s'.shared + t.th.sharedCount = s.shared + t'.th.sharedCount + extra e ∧
    s'.excl + t.th.exclCount = s.excl + t'.th.exclCount := by
  have hr := sum_set (fun h : Handle => h.th.sharedCount) s.handles i t t' ht
  have hx := sum_set (fun h : Handle => h.th.exclCount) s.handles i t t' ht
  intro s'
  have e1 : (([Handle.new]).map fun h => h.th.sharedCount).sum = 1 := rfl
  have e2 : (([Handle.new]).map fun h => h.th.exclCount).sum = 0 := rfl
  cases e <;> simp [s', FState.shared, FState.excl, extra, e1, e2, List.map_append] at * <;>
    simp_all [Handle.new, Th.sharedCount, Th.exclCount] <;> omega

theorem fstep_inv {s s' : FState} {i a e} (hi : FInv s) (h : fstep s i a = some (s', e))
    (hb : s'.shared < 2 ^ 62) : FInv s' := by
  obtain ⟨t, w', t', ht, hs, rfl⟩ := fstep_eq h
  have hm := List.mem_of_getElem? ht
  obtain ⟨hr, hx⟩ := fstep_sums (w' := w') (t' := t') (e := e) ht
  have hlr : t.th.sharedCount ≤ s.shared := by
    have := le_sum (fun h : Handle => h.th.sharedCount) s.handles t hm
    unfold FState.shared; omega
  have hlx : t.th.exclCount ≤ s.excl := le_sum (fun h : Handle => h.th.exclCount) s.handles t hm
  have key := stepHandle_inv (r := s.shared - t.th.sharedCount) (x := s.excl - t.th.exclCount)
    (hi.ok t hm).1 (hi.ok t hm).2
    (by rw [Nat.sub_add_cancel hlr, Nat.sub_add_cancel hlx]; exact hi.word) hs
    (by omega)
  refine ⟨?_, ?_, ?_⟩
  · intro u hu
    simp only [List.mem_append] at hu
    rcases hu with hu | hu
    · rcases List.mem_or_eq_of_mem_set hu with hu | rfl
      · exact hi.ok u hu
      · exact ⟨key.1, key.2.1⟩
    · split at hu
      · simp at hu; subst hu; simp [Handle.new, Handle.Ok, Th.Loc]
      · simp at hu
  · have h1 := key.2.2.1
    refine Eq.mp ?_ h1
    congr 1
    · omega
    · omega
  · have := key.2.2.2
    have := hi.removed
    simp only [rem] at *
    omega

theorem FRun.inv {s s' : FState} {l} (h : FRun s l s') (hi : FInv s) : FInv s' := by
  induction h with
  | nil => exact hi
  | cons h1 h2 _ ih => exact ih (fstep_inv hi h1 h2)

/-! ### Without accidents the last handle removes the file -/

def HAct.clean : HAct → Bool
  | .panicDrop => false
  | .run sp => !sp
  | _ => true

theorem Handle.Ok.loop {h : Handle} (hok : h.Ok) : ∀ c, h.th.pc = .unlockLoop .excl c → c = EXCLUSIVE := by
  obtain ⟨t, ph⟩ := h
  intro c hc
  cases ph <;> simp only [Handle.Ok] at hok
  · subst hok; simp at hc
  · rcases hok with rfl | ⟨_, rfl⟩ <;> simp at hc
  · rcases hok with rfl | ⟨_, rfl⟩ <;> simp at hc
  · rcases hok with rfl | ⟨_, rfl⟩ <;> simp at hc
  · rcases hok with rfl | ⟨_, rfl⟩ <;> simp at hc
  · rcases hok with rfl | rfl <;> simp at hc

/-- The step of a handle is one step of its lock thread; what the handle keeps of it has the same
exclusive count. -/
theorem stepHandle_th {w w' : Nat} {h h' : Handle} {a e}
    (hs : stepHandle w h a = some (w', h', e)) :
    ∃ b t' e', stepTh w h.th b = some (w', t', e') ∧ (a.clean = true → b.clean = true) ∧
      (t'.sharedCount ≤ h'.th.sharedCount + extra e) ∧ (h.Ok → t'.exclCount = h'.th.exclCount) := by
  obtain ⟨t, ph⟩ := h
  cases a with
  | run sp =>
    simp only [stepHandle] at hs
    cases hst : stepTh w t (.run sp) with
    | none => simp [hst] at hs
    | some res =>
      obtain ⟨w1, t1, e1⟩ := res
      simp only [hst] at hs
      cases ph with
      | live => simp at hs
      | gone => simp at hs
      | cloning =>
        cases e1 <;> simp at hs <;> obtain ⟨rfl, rfl, rfl⟩ := hs <;>
          refine ⟨_, _, _, hst, by simp [HAct.clean, Act.clean], ?_, ?_⟩ <;>
          simp [Th.sharedCount, Th.exclCount, extra] <;> omega
      | keeping =>
        cases e1 <;> simp at hs <;> obtain ⟨rfl, rfl, rfl⟩ := hs <;>
          refine ⟨_, _, _, hst, by simp [HAct.clean, Act.clean], ?_, ?_⟩ <;>
          simp [Th.sharedCount, Th.exclCount, extra] <;> omega
      | unlocking =>
        by_cases he : e1 = .released
        · subst he
          simp at hs; obtain ⟨rfl, rfl, rfl⟩ := hs
          simp only [stepTh] at hst
          have hpc : t1.pc = .idle := by
            repeat' split at hst
            all_goals (first | (exfalso; simp_all; done) | skip)
            all_goals simp at hst
            all_goals obtain ⟨_, rfl, _⟩ := hst
            all_goals rfl
          refine ⟨.run sp, t1, .released, hst, by simp [HAct.clean, Act.clean], ?_, fun _ => ?_⟩ <;>
            simp [Th.sharedCount, Th.exclCount, hpc]
        · have : some (w1, (⟨t1, .unlocking⟩ : Handle), HEv.silent) = some (w', h', e) := by
            cases e1 <;> first | exact absurd rfl he | simpa using hs
          simp at this
          obtain ⟨rfl, rfl, rfl⟩ := this
          exact ⟨_, _, _, hst, by simp [HAct.clean, Act.clean], by simp, fun _ => rfl⟩
      | trying =>
        cases e1 <;> simp at hs <;> obtain ⟨rfl, rfl, rfl⟩ := hs <;>
          exact ⟨_, _, _, hst, by simp [HAct.clean, Act.clean], by simp, fun _ => rfl⟩
  | clone =>
    simp only [stepHandle, Option.ite_none_right_eq_some, Option.map_eq_some_iff] at hs
    obtain ⟨rfl, ⟨w1, t1, e1⟩, h1, h2⟩ := hs
    simp at h2
    obtain ⟨rfl, rfl, rfl⟩ := h2
    exact ⟨_, _, _, h1, by simp [Act.clean], by simp, fun _ => rfl⟩
  | doNotDelete =>
    simp only [stepHandle, Option.ite_none_right_eq_some, Option.map_eq_some_iff] at hs
    obtain ⟨rfl, ⟨w1, t1, e1⟩, h1, h2⟩ := hs
    simp at h2
    obtain ⟨rfl, rfl, rfl⟩ := h2
    exact ⟨_, _, _, h1, by simp [Act.clean], by simp, fun _ => rfl⟩
  | drop =>
    simp only [stepHandle, Option.ite_none_right_eq_some, Option.map_eq_some_iff] at hs
    obtain ⟨rfl, ⟨w1, t1, e1⟩, h1, h2⟩ := hs
    simp at h2
    obtain ⟨rfl, rfl, rfl⟩ := h2
    exact ⟨_, _, _, h1, by simp [Act.clean], by simp, fun _ => rfl⟩
  | panicDrop =>
    simp only [stepHandle, Option.ite_none_right_eq_some, Option.map_eq_some_iff] at hs
    obtain ⟨rfl, ⟨w1, t1, e1⟩, h1, h2⟩ := hs
    simp at h2
    obtain ⟨rfl, rfl, rfl⟩ := h2
    exact ⟨_, _, _, h1, by simp [HAct.clean], by simp, fun _ => rfl⟩

structure FClean (s : FState) : Prop extends FInv s where
  low : s.word < 2 ^ 63
  exact : s.word = 2 ^ 62 → s.excl = 1
  last : s.kept = 0 → s.removed = 1 ∨ ∃ h ∈ s.handles, h.phase ≠ .gone

/-- A handle that ends its drop without removing the file found the lock taken. -/
theorem dropped_word {w w' : Nat} {h h' : Handle} {a e} (hok : h.Ok)
    (hs : stepHandle w h a = some (w', h', e)) (hg : h'.phase = .gone) (hc : a.clean = true)
    (hlow : w < 2 ^ 63) :
    e = .removed ∨ (w ≠ 0 ∧ h.th.sharedCount = 0) := by
  obtain ⟨t, ph⟩ := h
  cases a with
  | run sp =>
    have hsp : sp = false := by simpa [HAct.clean] using hc
    subst hsp
    simp only [stepHandle] at hs
    cases hst : stepTh w t (.run false) with
    | none => simp [hst] at hs
    | some res =>
      obtain ⟨w1, t1, e1⟩ := res
      simp only [hst] at hs
      cases ph with
      | live => simp at hs
      | gone => simp at hs
      | cloning => cases e1 <;> simp at hs <;> obtain ⟨rfl, rfl, rfl⟩ := hs <;> simp at hg
      | keeping => cases e1 <;> simp at hs <;> obtain ⟨rfl, rfl, rfl⟩ := hs <;> simp at hg
      | unlocking => cases e1 <;> simp at hs <;> obtain ⟨rfl, rfl, rfl⟩ := hs <;> simp at hg
      | trying =>
        simp only [Handle.Ok] at hok
        have hp : ¬ (w &&& POISONED ≠ 0) := by rw [and_poisoned (by omega)]; omega
        rcases hok with rfl | ⟨c, rfl⟩
        · simp only [stepTh, if_neg hp] at hst
          split at hst
          · rename_i hx
            rw [and_exclusive hlow] at hx
            right
            exact ⟨by omega, by simp [Th.sharedCount]⟩
          · simp at hst
            obtain ⟨rfl, rfl, rfl⟩ := hst
            simp at hs
            obtain ⟨rfl, rfl, rfl⟩ := hs
            simp at hg
        · simp only [stepTh, casWeak, and_true] at hst
          by_cases h0 : w = 0
          · simp only [if_pos h0] at hst
            simp at hst
            obtain ⟨rfl, rfl, rfl⟩ := hst
            simp at hs
            obtain ⟨rfl, rfl, rfl⟩ := hs
            simp
          · right
            exact ⟨h0, by simp [Th.sharedCount]⟩
  | clone =>
    simp only [stepHandle, Option.ite_none_right_eq_some, Option.map_eq_some_iff] at hs
    obtain ⟨rfl, ⟨w1, t1, e1⟩, h1, h2⟩ := hs
    simp at h2
    obtain ⟨rfl, rfl, rfl⟩ := h2
    simp at hg
  | doNotDelete =>
    simp only [stepHandle, Option.ite_none_right_eq_some, Option.map_eq_some_iff] at hs
    obtain ⟨rfl, ⟨w1, t1, e1⟩, h1, h2⟩ := hs
    simp at h2
    obtain ⟨rfl, rfl, rfl⟩ := h2
    simp at hg
  | drop =>
    simp only [stepHandle, Option.ite_none_right_eq_some, Option.map_eq_some_iff] at hs
    obtain ⟨rfl, ⟨w1, t1, e1⟩, h1, h2⟩ := hs
    simp at h2
    obtain ⟨rfl, rfl, rfl⟩ := h2
    simp at hg
  | panicDrop => simp [HAct.clean] at hc

theorem shared_gone {h : Handle} (hok : h.Ok) (hp : 0 < h.th.sharedCount) : h.phase ≠ .gone := by
  obtain ⟨t, ph⟩ := h
  rintro rfl
  simp only [Handle.Ok] at hok
  rcases hok with rfl | rfl <;> simp [Th.sharedCount] at hp

theorem exists_pos {α : Type} {f : α → Nat} : ∀ {l : List α}, 0 < (l.map f).sum → ∃ t ∈ l, 0 < f t
  | [], h => by simp at h
  | a :: l, h => by
    simp only [List.map_cons, List.sum_cons] at h
    by_cases ha : 0 < f a
    · exact ⟨a, by simp, ha⟩
    · obtain ⟨t, ht, h'⟩ := exists_pos (f := f) (l := l) (by omega)
      exact ⟨t, by simp [ht], h'⟩

theorem fstep_clean {s s' : FState} {i a e} (hi : FClean s) (h : fstep s i a = some (s', e))
    (hb : s'.shared < 2 ^ 62) (ha : a.clean = true) : FClean s' := by
  have hinv := fstep_inv hi.toFInv h hb
  obtain ⟨t, w', t', ht, hs, rfl⟩ := fstep_eq h
  have hm := List.mem_of_getElem? ht
  obtain ⟨hok, hloc⟩ := hi.ok t hm
  obtain ⟨hr, hx⟩ := fstep_sums (w' := w') (t' := t') (e := e) ht
  have hlr : t.th.sharedCount ≤ s.shared := by
    have := le_sum (fun h : Handle => h.th.sharedCount) s.handles t hm
    unfold FState.shared; omega
  have hlx : t.th.exclCount ≤ s.excl := le_sum (fun h : Handle => h.th.exclCount) s.handles t hm
  obtain ⟨b, t1, e1, hst, hcl, hle, hex⟩ := stepHandle_th hs
  have hw : Word s.word (s.shared - t.th.sharedCount + t.th.sharedCount)
      (s.excl - t.th.exclCount + t.th.exclCount) := by
    rw [Nat.sub_add_cancel hlr, Nat.sub_add_cancel hlx]; exact hi.word
  have key := stepTh_clean hloc hw hst (by omega) (hcl ha) hi.low
    (by rw [Nat.sub_add_cancel hlx]; exact hi.exact) hok.loop
  rw [hex hok] at key
  refine ⟨hinv, key.1, ?_, ?_⟩
  · intro hwe
    have := key.2 hwe
    omega
  · intro hk
    simp only at hk ⊢
    by_cases hg : t'.phase = .gone
    · rcases dropped_word hok hs hg ha hi.low with he | ⟨hw0, hs0⟩
      · left
        have h1 := hinv.removed
        have h2 := hinv.word.2
        simp only [he, if_true] at h1 h2 ⊢
        omega
      · have hwd := hi.word.2
        have hlow := hi.low
        have hrem := hi.removed
        by_cases hxe : s.word = 2 ^ 62
        · left
          have h1 := hi.exact hxe
          have h2 := hinv.removed
          have h3 := hinv.word.2
          simp only at h2 h3
          omega
        · right
          have hsh : 0 < s.shared := by omega
          have hk0 : s.kept = 0 := by omega
          obtain ⟨u, hu, hup⟩ := exists_pos (f := fun h : Handle => h.th.sharedCount)
            (l := s.handles) (by unfold FState.shared at hsh; omega)
          obtain ⟨j, hj⟩ := List.getElem?_of_mem hu
          have hij : i ≠ j := by
            rintro rfl
            rw [ht] at hj; cases hj
            omega
          refine ⟨u, ?_, shared_gone (hi.ok u hu).1 hup⟩
          rw [List.mem_append]
          left
          apply List.mem_of_getElem? (i := j)
          rw [List.getElem?_set_ne hij]; exact hj
    · right
      refine ⟨t', ?_, hg⟩
      rw [List.mem_append]
      left
      exact List.mem_set ((List.getElem?_eq_some_iff.1 ht).1) _

theorem FRun.clean {s s' : FState} {l} (h : FRun s l s') (hi : FClean s)
    (hl : ∀ x ∈ l, x.2.1.clean = true) : FClean s' := by
  induction h with
  | nil => exact hi
  | cons h1 h2 _ ih =>
    exact ih (fstep_clean hi h1 h2 (hl _ List.mem_cons_self)) (fun x hx => hl x (by simp [hx]))

theorem new_fclean : FClean FState.new := by
  refine ⟨new_finv, by decide, by decide, fun _ => .inr ⟨Handle.new, by simp [FState.new], by decide⟩⟩

/-! ### DynConcurrent -/

structure DInv (s : DState) : Prop where
  word : s.word = 1 ∨ s.word = POISONED + 1
  freed : s.freed = 0
  ok : ∀ h ∈ s.handles, h.1.readers = 0 ∧ h.1.writer = false ∧
    (h.1.pc = .idle ∨ h.1.pc = .load .excl false ∨ ∃ c, h.1.pc = .cas .excl false c)

theorem new_dinv : DInv DState.new := by
  refine ⟨.inl rfl, rfl, ?_⟩
  intro h hh
  simp [DState.new] at hh
  subst hh
  simp [Th.new]

theorem set_ok {s : DState} {i : Nat} {p : Th × Bool} {P : Th × Bool → Prop}
    (h : ∀ h ∈ s.handles, P h) (hp : P p) : ∀ h ∈ s.handles.set i p, P h := by
  intro u hu
  rcases List.mem_or_eq_of_mem_set hu with hu | rfl
  · exact h u hu
  · exact hp

theorem dstep_inv {s s' : DState} {i a} (hi : DInv s) (h : dstep s i a = some s') : DInv s' := by
  unfold dstep at h
  split at h
  · simp at h
  · rename_i t live ht
    have hm := List.mem_of_getElem? ht
    obtain ⟨hr, hw, hpc⟩ := hi.ok _ hm
    obtain ⟨pc, rd, wr⟩ := t
    simp only at hr hw hpc
    subst hr; subst hw
    cases a with
    | clone =>
      simp at h
      obtain ⟨_, rfl⟩ := h
      refine ⟨hi.word, hi.freed, ?_⟩
      intro u hu
      simp at hu
      rcases hu with hu | rfl
      · exact hi.ok u hu
      · simp [Th.new]
    | use =>
      simp at h
      obtain ⟨_, rfl⟩ := h
      exact hi
    | drop =>
      simp only [Option.ite_none_right_eq_some, Option.map_eq_some_iff] at h
      obtain ⟨_, ⟨w1, t1, e1⟩, h1, rfl⟩ := h
      simp [stepTh] at h1
      obtain ⟨_, rfl, rfl, rfl⟩ := h1
      exact ⟨hi.word, hi.freed, set_ok hi.ok (by simp)⟩
    | panicDrop =>
      cases live with
      | true => simp at h
      | false =>
        simp only [Bool.false_eq_true, if_false, Option.map_eq_some_iff] at h
        obtain ⟨⟨w1, t1, e1⟩, h1, rfl⟩ := h
        simp only [stepTh, Option.ite_none_right_eq_some, Option.some.injEq, Prod.mk.injEq] at h1
        obtain ⟨h0, rfl, rfl, rfl⟩ := h1
        refine ⟨.inr ?_, hi.freed, set_ok hi.ok ⟨rfl, rfl, hpc⟩⟩
        simp only
        rcases hi.word with hw | hw <;> rw [hw] <;> decide
    | run sp =>
      cases live with
      | true => simp at h
      | false =>
        simp only [Bool.false_eq_true, if_false] at h
        rcases hpc with rfl | rfl | ⟨c, rfl⟩
        · simp [stepTh] at h
        · simp only [stepTh] at h
          rcases hi.word with hw | hw
          · have h1 : ¬ (s.word &&& POISONED ≠ 0) := by rw [hw]; decide
            have h2 : ¬ (s.word &&& EXCLUSIVE ≠ 0) := by rw [hw]; decide
            simp only [if_neg h1, if_neg h2, Option.bind_some, Option.some.injEq] at h
            subst h
            exact ⟨hi.word, hi.freed, set_ok hi.ok (by simp)⟩
          · have h1 : s.word &&& POISONED ≠ 0 := by rw [hw]; decide
            simp only [if_pos h1, Option.bind_some, Option.some.injEq] at h
            subst h
            exact ⟨hi.word, hi.freed, set_ok hi.ok (by simp)⟩
        · have h0 : ¬ (s.word = 0 ∧ sp = false) := by
            have := hP
            have := hi.word
            omega
          simp only [stepTh, casWeak, if_neg h0, Bool.false_eq_true, if_false, Option.bind_some,
            Option.some.injEq] at h
          subst h
          exact ⟨hi.word, hi.freed, set_ok hi.ok (by simp)⟩

theorem DRun.inv {s s' : DState} {l} (h : DRun s l s') (hi : DInv s) : DInv s' := by
  induction h with
  | nil => exact hi
  | cons h1 _ ih => exact ih (dstep_inv hi h1)

end Byoc.Handles
