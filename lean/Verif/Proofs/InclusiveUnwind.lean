import Verif.Model.InclusiveUnwind
import Verif.Proofs.AccessUnwind

/-! # What panics in the accesses of an `Inclusive` leave -/

namespace Byoc.Unwind

open M

variable {K V : Type}

section Agree

variable {F B : Block K (InclCell V)} {GF : GetOps F} {GB : GetOps B}
  {UF : Unwinding F.State K (InclCell V)} {UB : Unwinding B.State K (InclCell V)}
  {AF : Using F.State K (InclCell V)} {AB : Using B.State K (InclCell V)}

theorem inclusiveDowngrade_agrees (hF : Agrees F UF) (hB : Agrees B UB)
    (aB : ∀ s k f half, (AB.get k f half).res s = GB.get s k f) (k : K) (s : F.State × B.State) :
    (inclusiveDowngrade (S := F.State) (T := B.State) UF UB AB k).res s = Byoc.inclusiveDowngrade F B GB s k := by
  unfold inclusiveDowngrade Byoc.inclusiveDowngrade
  rw [res_bind, res_snd', aB]
  cases h : GB.get s.2 k InclCell.clone with
  | panic => rfl
  | ok p =>
    obtain ⟨o, b⟩ := p
    cases o with
    | none => rfl
    | some c =>
      simp only [Res.ok_bind, res_bind, res_fst', hF.push]
      cases h2 : F.push s.1 [(k, c.clone)] with
      | panic => rfl
      | ok p =>
        obtain ⟨popped, f⟩ := p
        simp only [Res.ok_bind]
        split
        · rfl
        · simp only [res_bind, res_snd', hB.takeMultiple]
          cases h3 : B.takeMultiple b ((popped.filter fun e => e.2.updated).map Prod.fst) with
          | panic => rfl
          | ok p =>
            obtain ⟨a, ks, b⟩ := p
            simp only [Res.ok_bind, res_bind, res_snd', hB.push]
            cases h4 : B.push b (popped.filter fun e => e.2.updated) with
            | panic => rfl
            | ok p =>
              obtain ⟨out, b⟩ := p
              simp only [Res.ok_bind]
              split <;> rfl

theorem inclusiveUse_agrees (hF : Agrees F UF) (hB : Agrees B UB)
    (aB : ∀ s k f half, (AB.get k f half).res s = GB.get s k f)
    {cell : (V → V) → InclCell V → InclCell V}
    {op : K → (InclCell V → InclCell V) → (Nat → InclCell V → InclCell V) → M F.State (Option (InclCell V))}
    {op0 : F.State → K → (InclCell V → InclCell V) → Res (Option (InclCell V) × F.State)}
    (aO : ∀ s k f half, (op k f half).res s = op0 s k f) (k : K) (f : V → V) (half : Nat → V → V) (s : F.State × B.State) :
    (inclusiveUse (S := F.State) (T := B.State) UF UB AB cell op k f half).res s =
      Byoc.inclusiveAccess F B GB op0 s k (cell f) := by
  unfold inclusiveUse Byoc.inclusiveAccess
  rw [res_bind, res_fst', hF.contains]
  cases h : F.contains s.1 k with
  | panic => rfl
  | ok p =>
    obtain ⟨b, fr⟩ := p
    simp only [Res.ok_bind]
    cases b with
    | true =>
      simp only [if_true, Res.ok_bind, res_bind, res_pure, res_fst', aO, Res.pure_eq]
      cases h2 : op0 fr k (cell f) <;> rfl
    | false =>
      simp only [Bool.false_eq_true, if_false, res_bind, inclusiveDowngrade_agrees (GB := GB) hF hB aB]
      cases h2 : Byoc.inclusiveDowngrade F B GB (fr, s.2) k with
      | panic => rfl
      | ok p =>
        obtain ⟨b, s1⟩ := p
        simp only [Res.ok_bind]
        cases b with
        | true =>
          simp only [if_true, res_bind, res_fst', aO]
          cases h2 : op0 s1.1 k (cell f) <;> rfl
        | false => rfl

end Agree

/-- A use of an element of an `Array` that panics: nothing changes, or it is as the use `half n`. -/
theorem arrayUse_panics [DecidableEq K] (k : K) (f : V → V) (half : Nat → V → V) (a : Array K V) :
    (arrayUse k f half).Esc a fun a' => a' = a ∨ ∃ n v, Array.getMut a k (half n) = (some v, a') := by
  unfold arrayUse
  refine esc_withState (esc_bind (esc_user (.inl rfl)) fun _ s1 h1 => ?_)
  have : s1 = a := by rw [res_user] at h1; cases h1; rfl
  subst this
  cases hk : findKey s1.values k with
  | none => exact esc_pure _ _ _
  | some i =>
    simp only
    cases hv : s1.values[i]? with
    | none => exact esc_pure _ _ _
    | some e =>
      obtain ⟨k', v⟩ := e
      refine esc_bind (esc_useCell (.inl rfl) fun n a' ha => .inr ?_) fun _ _ _ => esc_set_bind (esc_pure _ _ _)
      cases ha
      exact ⟨n, v, by simp only [Array.getMut, hk, hv]⟩

end Byoc.Unwind
