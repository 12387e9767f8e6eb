import Verif.Proofs.UnwindKept

/-! # Panics of the user's functions: `BTree` and `Inclusive` without panics -/

set_option linter.unusedSectionVars false
set_option linter.unusedVariables false
set_option linter.unusedSimpArgs false

namespace Byoc.Unwind

open M

variable {K V : Type}

section BTree

variable [LinearOrder K] [LinearOrder V]

theorem btreeTake_agrees (sz : K × V → Nat) (k : K) (t : BTree K V) :
    (btreeTake sz k).res t = t.take sz k := by
  unfold btreeTake BTree.take
  simp only [res_withState]
  rcases h : mapRemove t.map k with ⟨o, map⟩
  cases o with
  | none => rfl
  | some v =>
    simp only [res_bind, res_set, Res.ok_bind, res_user, res_ofRes]
    cases h : Res.sub t.totalSize (sz (k, v)) <;> rfl

theorem btreeRemoveAll_agrees : ∀ (l : List (V × K)) (t : BTree K V),
    (btreeRemoveAll l).res t =
      (BTree.removeAll t.map l >>= fun r => .ok (r.1, { t with map := r.2 })) := by
  intro l
  induction l with
  | nil => intro t; rfl
  | cons e l ih =>
    intro t
    obtain ⟨v, k⟩ := e
    unfold btreeRemoveAll BTree.removeAll
    simp only [res_withState, res_bind, res_set, Res.ok_bind, res_ofRes]
    rcases h : mapRemove t.map k with ⟨o, map⟩
    cases o with
    | none => rfl
    | some v' =>
      simp only [Res.unwrap_some, Res.ok_bind]
      by_cases hv : v' = v
      · subst hv
        simp only [if_true, res_bind, ih]
        cases h : BTree.removeAll map l <;> rfl
      · simp only [if_neg hv]; rfl

theorem btreePop_agrees (sz : K × V → Nat) (n : Nat) (t : BTree K V) :
    (btreePop sz n).res t = t.pop sz n := by
  unfold btreePop BTree.pop
  simp only [res_withState]
  split
  · rfl
  split
  · rfl
  simp only [res_bind, res_user, Res.ok_bind, res_ofRes]
  cases h : (findCutAtSize (fun e : V × K => sz (e.2, e.1)) n t.set).2.2 with
  | none => rfl
  | some e =>
    simp only [Res.unwrap_some, Res.ok_bind]
    cases h : Res.sub t.totalSize (findCutAtSize (fun e : V × K => sz (e.2, e.1)) n t.set).2.1 with
    | panic => rfl
    | ok total =>
      simp only [Res.ok_bind, res_set, btreeRemoveAll_agrees]
      cases h : BTree.removeAll t.map (t.set.filter fun x => decide (pairLe e x)) <;> rfl

theorem btreeTakes_agrees (sz : K × V → Nat) (ks : List K) (t : BTree K V) :
    (defaultTakeMultiple (btreeTake sz) ks).res t = Byoc.defaultTakeMultiple (BTree.take sz) t ks := by
  induction ks generalizing t with
  | nil => rfl
  | cons k ks ih =>
    simp only [defaultTakeMultiple, Byoc.defaultTakeMultiple, res_bind, btreeTake_agrees]
    cases h : t.take sz k with
    | panic => rfl
    | ok p =>
      simp only [Res.ok_bind, ih]
      cases h : Byoc.defaultTakeMultiple (BTree.take sz) p.2 ks <;> rfl

theorem btreePush_agrees (sz : K × V → Nat) (l : List (K × V)) (t : BTree K V) :
    (btreePush sz l).res t = t.push sz l := by
  unfold btreePush BTree.push
  simp only [res_withState, res_bind, res_user, Res.ok_bind]
  split
  · simp only [res_bind, res_set, Res.ok_bind]
    have hc : ∀ (l : List (K × V)) (t : BTree K V), (t.insertUnchecked l).capacity = t.capacity := by
      intro l
      induction l with
      | nil => intro t; rfl
      | cons e l ih => intro t; obtain ⟨k, v⟩ := e; simp only [BTree.insertUnchecked, ih]
    have hc' : (t.flush.2.insertUnchecked l).capacity = t.capacity := hc l _
    simp only [hc']
    split
    · simp only [res_bind, btreePop_agrees]
      cases h : BTree.pop sz { t.flush.2.insertUnchecked l with totalSize := total sz l }
        (total sz l - t.capacity) <;> rfl
    · rfl
  · simp only [res_bind, btreeTakes_agrees]
    cases h : Byoc.defaultTakeMultiple (BTree.take sz) t (l.map Prod.fst) with
    | panic => rfl
    | ok p =>
      simp only [Res.ok_bind, res_withState, res_bind, res_ofRes]
      cases hr : Res.sub p.2.capacity p.2.totalSize with
      | panic => rfl
      | ok room =>
        simp only [Res.ok_bind]
        split
        · simp only [res_bind, btreePop_agrees]
          cases h : BTree.pop sz p.2 (total sz l - room) <;> rfl
        · rfl

theorem btree_agrees (sz : K × V → Nat) : Agrees (btreeBlock sz) (btree (K := K) (V := V) sz) where
  contains s k := rfl
  take s k := btreeTake_agrees sz k s
  takeMultiple (s : BTree K V) ks := by
    show M.res (σ := BTree K V) _ s = _
    simp only [btree, res_bind, btreeTakes_agrees]
    show _ = ((Byoc.defaultTakeMultiple (BTree.take sz) s ks >>= fun p => .ok (p.1, ks, p.2)) >>= _)
    cases h : Byoc.defaultTakeMultiple (BTree.take sz) s ks <;> rfl
  pop s n := btreePop_agrees sz n s
  push s l := btreePush_agrees sz l s
  flush s := rfl

/-- A `take` that panics has removed the key from the map, and only from the map. -/
theorem btreeTake_esc (sz : K × V → Nat) (k : K) (t : BTree K V) :
    (btreeTake sz k).Esc t fun t' => t' = { t with map := t.map.filter fun x => decide (x.1 ≠ k) } := by
  unfold btreeTake
  apply esc_withState
  rcases h : mapRemove t.map k with ⟨o, map⟩
  have hm : map = t.map.filter fun x => decide (x.1 ≠ k) := by
    have := congrArg Prod.snd h; simpa [mapRemove] using this.symm
  subst hm
  cases o with
  | none => exact esc_pure _ _ _
  | some v =>
    exact esc_set_bind (esc_user_bind rfl (esc_ofRes_bind rfl fun _ _ => esc_set_bind (esc_pure _ _ _)))

theorem btreeRemoveAll_esc : ∀ (l : List (V × K)) (t : BTree K V) r,
    BTree.removeAll t.map l = .ok r → (btreeRemoveAll l).Esc t fun _ => False := by
  intro l
  induction l with
  | nil => intro t r _; exact esc_pure _ _ _
  | cons e l ih =>
    intro t r h
    obtain ⟨v, k⟩ := e
    unfold BTree.removeAll at h
    unfold btreeRemoveAll
    refine esc_withState (esc_set_bind ?_)
    rcases hm : mapRemove t.map k with ⟨o, map⟩
    cases o with
    | none => simp [hm, Res.unwrap] at h
    | some v' =>
      refine esc_bind (esc_ofRes_ok (a := v') rfl) fun a s' ha => ?_
      obtain ⟨ha, rfl⟩ := res_ofRes_ok ha
      cases ha
      by_cases hv : v' = v
      · rw [if_pos hv]
        simp only [hm, Res.unwrap_some, Res.ok_bind, if_pos hv] at h
        cases hr : BTree.removeAll map l with
        | panic => simp [hr] at h
        | ok q => exact esc_bind (ih _ q (by simpa using hr)) fun _ _ _ => esc_pure _ _ _
      · simp [hm, if_neg hv] at h

/-- A `pop` of a container that is in order and that panics has changed nothing. -/
theorem btreePop_esc (sz : K × V → Nat) (n : Nat) (t : BTree K V) {p} (h : t.pop sz n = .ok p) :
    (btreePop sz n).Esc t fun t' => t' = t := by
  unfold BTree.pop at h
  unfold btreePop
  apply esc_withState
  split
  · exact esc_pure _ _ _
  rename_i h1
  rw [if_neg h1] at h
  split
  · exact esc_set_bind (esc_pure _ _ _)
  rename_i h2
  rw [if_neg h2] at h
  refine esc_user_bind rfl (esc_ofRes_bind rfl fun e he => esc_ofRes_bind rfl fun total ht => esc_set_bind ?_)
  replace he : Res.unwrap (findCutAtSize (fun e : V × K => sz (e.2, e.1)) n t.set).2.2 = .ok e := he
  replace ht : Res.sub t.totalSize (findCutAtSize (fun e : V × K => sz (e.2, e.1)) n t.set).2.1 = .ok total := ht
  simp only [he, ht, Res.ok_bind] at h
  cases hr : BTree.removeAll t.map (t.set.filter fun x => decide (pairLe e x)) with
  | panic => simp [hr] at h
  | ok q =>
    exact (btreeRemoveAll_esc _ { t with totalSize := total, set := t.set.filter fun x => decide (¬ pairLe e x) } q hr).mono
      fun _ => False.elim

end BTree

section Inclusive

open Byoc.Inclusive

theorem inclusivePopLoop_agrees {F : Block K (InclCell V)} {UF : Unwinding F.State K (InclCell V)}
    (hF : Agrees F UF) : ∀ (l : List (K × InclCell V)) (f : F.State),
      (inclusivePopLoop UF l).res f = popLoop F f l := by
  intro l
  induction l with
  | nil => intro f; rfl
  | cons e l ih =>
    intro f
    unfold inclusivePopLoop popLoop
    split
    · simp only [res_bind, hF.take, res_ofRes]
      cases h : F.take f e.1 with
      | panic => rfl
      | ok p =>
        simp only [Res.ok_bind]
        cases h : p.1 with
        | none => rfl
        | some x =>
          simp only [Res.unwrap_some, Res.ok_bind, ih]
          cases h : popLoop F p.2 l <;> rfl
    · simp only [res_bind, ih]
      cases h : popLoop F f l <;> rfl

theorem inclusive_agrees {F B : Block K (InclCell V)} {UF : Unwinding F.State K (InclCell V)}
    {UB : Unwinding B.State K (InclCell V)} (hF : Agrees F UF) (hB : Agrees B UB) :
    Agrees (Byoc.inclusive F B) (inclusive UF UB) where
  contains (s : F.State × B.State) k := by
    show M.res (σ := F.State × B.State) _ s = (Byoc.inclusive F B).contains s k
    simp only [inclusive, Byoc.inclusive, res_bind, res_fst', hF.contains]
    cases h : F.contains s.1 k with
    | panic => rfl
    | ok p =>
      obtain ⟨b, f⟩ := p
      cases b
      · simp only [Res.ok_bind, Bool.false_eq_true, if_false, res_snd', hB.contains]
        cases h : B.contains s.2 k <;> rfl
      · rfl
  take (s : F.State × B.State) k := by
    show M.res (σ := F.State × B.State) _ s = (Byoc.inclusive F B).take s k
    simp only [inclusive, Byoc.inclusive, res_bind, res_snd', hB.take]
    cases h : B.take s.2 k with
    | panic => rfl
    | ok p =>
      obtain ⟨o, b⟩ := p
      cases o with
      | none => rfl
      | some e =>
        simp only [Res.ok_bind]
        split
        · simp only [res_bind, res_fst', hF.take]
          cases h : F.take s.1 k with
          | panic => rfl
          | ok p =>
            obtain ⟨o, f⟩ := p
            cases o <;> rfl
        · rfl
  takeMultiple (s : F.State × B.State) ks := by
    show M.res (σ := F.State × B.State) _ s = _
    show _ = ((Byoc.inclusive F B).takeMultiple s ks >>= _)
    simp only [inclusive, Byoc.inclusive, res_bind, res_snd', hB.takeMultiple]
    cases h : B.takeMultiple s.2 ks with
    | panic => rfl
    | ok p =>
      obtain ⟨out, ks', b⟩ := p
      simp only [Res.ok_bind, res_bind, res_fst', hF.takeMultiple]
      cases h : F.takeMultiple s.1 (clonedKeys out) <;> rfl
  pop (s : F.State × B.State) n := by
    show M.res (σ := F.State × B.State) _ s = (Byoc.inclusive F B).pop s n
    simp only [inclusive, Byoc.inclusive, res_bind, res_snd', hB.pop]
    cases h : B.pop s.2 n with
    | panic => rfl
    | ok p =>
      simp only [Res.ok_bind, res_fst', inclusivePopLoop_agrees hF]
      cases h : popLoop F s.1 p.1 <;> rfl
  push (s : F.State × B.State) l := by
    show M.res (σ := F.State × B.State) _ s = (Byoc.inclusive F B).push s l
    simp only [inclusive, Byoc.inclusive, res_bind, res_snd', hB.push]
    cases h : B.push s.2 (l.map wrap) with
    | panic => rfl
    | ok p =>
      simp only [Res.ok_bind, res_bind, res_fst', hF.takeMultiple]
      cases h : F.takeMultiple s.1 (clonedKeys p.1) <;> rfl
  flush (s : F.State × B.State) := by
    show M.res (σ := F.State × B.State) _ s = (Byoc.inclusive F B).flush s
    simp only [inclusive, Byoc.inclusive, res_bind, res_fst', hF.flush]
    cases h : F.flush s.1 with
    | panic => rfl
    | ok p =>
      simp only [Res.ok_bind, res_bind, res_snd', hB.takeMultiple]
      set fr := p.1.filterMap fun e => if e.2.updated then some (e.1, InclCell.new e.2.value) else none
      cases h : B.takeMultiple s.2 (fr.map Prod.fst) with
      | panic => rfl
      | ok q =>
        simp only [Res.ok_bind, hB.push]
        cases h : B.push q.2.2 fr with
        | panic => rfl
        | ok r =>
          simp only [Res.ok_bind]
          split
          · simp only [res_bind, res_snd', hB.flush]
            cases h : B.flush r.2 <;> rfl
          · rfl

end Inclusive

end Byoc.Unwind
