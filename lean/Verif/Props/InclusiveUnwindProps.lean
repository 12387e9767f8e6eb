import Verif.Proofs.InclusiveUnwind
import Verif.Proofs.InclusiveWeak
import Verif.Props.InclusiveProps
import Verif.Props.AccessUnwindProps

/-!
# C126: panics of the user's functions in accesses of an `Inclusive`

A `get` copies the element from the back to the front: `clone` of the value, `eq`, `element_size`, comparisons, and the code
that uses the cell, are functions of the user.
-/

set_option linter.unusedSectionVars false

namespace Byoc
namespace InclusiveUnwindProps

open Unwind UnwindProps AccessUnwindProps Inclusive InclusiveProps

section General

variable {K V : Type} [LinearOrder K] {left : Nat → List (K × InclCell V) → List (K × InclCell V)}
  (f₁ f₂ b₁ b₂ : Sorter (K × InclCell V))

/-- An `Array` that counts elements. -/
abbrev level (s₁ s₂ : Sorter (K × InclCell V)) : Block K (InclCell V) := arrayBlock (fun _ => 1) s₁ s₂

/-- `Inclusive<Array, Array>`. -/
abbrev both : Block K V := Byoc.inclusive (level f₁ f₂) (level b₁ b₂)

/-- Its `get` and `get_mut` when nothing panics. -/
abbrev cells : GetOps (both (K := K) (V := V) f₁ f₂ b₁ b₂) :=
  inclusiveGet (arrayGet (fun _ => 1) f₁ f₂) (arrayGet (fun _ => 1) b₁ b₂)

/-- Its `get` and `get_mut` when functions of the user may panic. -/
abbrev using_ (left : Nat → List (K × InclCell V) → List (K × InclCell V)) :
    Using (Array K (InclCell V) × Array K (InclCell V)) K V :=
  inclusiveUsing (array (fun _ => 1) f₁ f₂ left) (array (fun _ => 1) b₁ b₂ left) arrayUsing arrayUsing

/-- The elements of an `Inclusive`: what is in the back, with the value of the copy in the front if there is one. -/
def visible (s : Array K (InclCell V) × Array K (InclCell V)) : List (K × V) := vis s.1.values s.2.values

theorem levels_agree (s₁ s₂ : Sorter (K × InclCell V)) : Agrees (level s₁ s₂) (array (fun _ => 1) s₁ s₂ left) :=
  array_agrees _ _ _ _

theorem arrayGet_agrees (s₁ s₂ : Sorter (K × InclCell V)) (a : Array K (InclCell V)) (k : K)
    (f : InclCell V → InclCell V) (half : Nat → InclCell V → InclCell V) :
    (arrayUse k f half).res a = (arrayGet (fun _ => 1) s₁ s₂).get a k f :=
  (array_useLaw (sz := fun _ => 1) (srt := s₁) (srtS := s₂) True True).agrees a k f half

theorem using_get_agrees (s : Array K (InclCell V) × Array K (InclCell V)) (k : K) (f : V → V) (half : Nat → V → V) :
    ((using_ f₁ f₂ b₁ b₂ left).get k f half).res s = (cells f₁ f₂ b₁ b₂).get s k f :=
  inclusiveUse_agrees (F := level f₁ f₂) (B := level b₁ b₂) (GB := arrayGet (fun _ => 1) b₁ b₂)
    (levels_agree f₁ f₂) (levels_agree b₁ b₂)
    (fun a k f half => arrayGet_agrees b₁ b₂ a k f half) (fun a k f half => arrayGet_agrees f₁ f₂ a k f half) k f half s

theorem using_getMut_agrees (s : Array K (InclCell V) × Array K (InclCell V)) (k : K) (f : V → V) (half : Nat → V → V) :
    ((using_ f₁ f₂ b₁ b₂ left).getMut k f half).res s = (cells f₁ f₂ b₁ b₂).getMut s k f :=
  inclusiveUse_agrees (F := level f₁ f₂) (B := level b₁ b₂) (GB := arrayGet (fun _ => 1) b₁ b₂)
    (levels_agree f₁ f₂) (levels_agree b₁ b₂)
    (fun a k f half => arrayGet_agrees b₁ b₂ a k f half) (fun a k f half => arrayGet_agrees f₁ f₂ a k f half) k f half s

/-- The access of the model without panics. -/
abbrev plainly (s : Array K (InclCell V) × Array K (InclCell V)) (k : K) (g : InclCell V → InclCell V) :
    Res (Option V × (Array K (InclCell V) × Array K (InclCell V))) :=
  inclusiveAccess (level f₁ f₂) (level b₁ b₂) (arrayGet (fun _ => 1) b₁ b₂)
    (fun (a : Array K (InclCell V)) k f => .ok (Array.getMut a k f)) s k g

theorem getMut_id (a : Array K (InclCell V)) (k : K) : (Array.getMut a k (InclCell.read id)).2 = a := by
  unfold Array.getMut
  cases hk : findKey a.values k with
  | none => rfl
  | some i =>
    simp only
    cases hv : a.values[i]? with
    | none => rfl
    | some e =>
      obtain ⟨k', v⟩ := e
      have : a.values.set i (k', v) = a.values := by
        obtain ⟨hi, e1⟩ := List.getElem?_eq_some_iff.1 hv
        rw [← e1]
        exact List.set_getElem_self hi
      simp only [InclCell.read, id_eq, this]

/-- What an access that panics leaves. -/
theorem use_panics (cell : (V → V) → InclCell V → InclCell V) (s : Array K (InclCell V) × Array K (InclCell V)) (k : K)
    (f : V → V) (half : Nat → V → V) :
    (inclusiveUse (array (fun _ => 1) f₁ f₂ left) (array (fun _ => 1) b₁ b₂ left) arrayUsing cell arrayUse k f half).Esc s
      fun s' => s' = s ∨ (∃ o, plainly f₁ f₂ b₁ b₂ s k (InclCell.read id) = .ok (o, s')) ∨
        (∃ n o, plainly f₁ f₂ b₁ b₂ s k (cell (half n)) = .ok (o, s')) ∨
        (¬ HasKey s.1.values k ∧ HasKey s.2.values k) := by
  have hcont : ∀ a : Array K (InclCell V), ((array (fun _ => 1) f₁ f₂ left).contains k).res a = .ok (a.contains k, a) :=
    fun a => rfl
  have hkey : s.1.contains k = true ↔ HasKey s.1.values k := by
    simp only [Array.contains, List.any_eq_true, decide_eq_true_eq]
    exact ⟨fun ⟨e, h1, h2⟩ => ⟨e.2, h2 ▸ h1⟩, fun ⟨v, h⟩ => ⟨_, h, rfl⟩⟩
  unfold inclusiveUse
  refine M.esc_bind (M.esc_fst (M.esc_withState (M.esc_bind (M.esc_user (.inl rfl)) fun _ _ _ => M.esc_pure _ _ _)))
    fun found s1 h1 => ?_
  rw [M.res_fst', hcont] at h1
  simp only [Res.ok_bind, Res.ok.injEq, Prod.mk.injEq] at h1
  obtain ⟨rfl, rfl⟩ := h1
  -- the use of the cell
  have rest : ∀ s1 : Array K (InclCell V) × Array K (InclCell V),
      (∀ g, plainly f₁ f₂ b₁ b₂ s k g =
        .ok ((Array.getMut s1.1 k g).1.map InclCell.value, ((Array.getMut s1.1 k g).2, s1.2))) →
      (do
        let o ← M.fst (arrayUse k (cell f) fun n => cell (half n))
        return o.map InclCell.value : M (Array K (InclCell V) × Array K (InclCell V)) (Option V)).Esc s1
        fun s' => s' = s ∨ (∃ o, plainly f₁ f₂ b₁ b₂ s k (InclCell.read id) = .ok (o, s')) ∨
          (∃ n o, plainly f₁ f₂ b₁ b₂ s k (cell (half n)) = .ok (o, s')) ∨
          (¬ HasKey s.1.values k ∧ HasKey s.2.values k) := by
    intro s1 hA
    refine M.esc_bind (M.esc_fst ((arrayUse_panics k _ _ s1.1).mono fun a' ha => ?_)) fun _ _ _ => M.esc_pure _ _ _
    rcases ha with rfl | ⟨n, v, ha⟩
    · exact .inr (.inl ⟨_, by rw [hA, getMut_id]⟩)
    · exact .inr (.inr (.inl ⟨n, _, by rw [hA, ha]⟩))
  cases hc : s.1.contains k with
  | true =>
    simp only [if_true]
    refine M.esc_bind (M.esc_pure _ _ _) fun found s2 h2 => ?_
    obtain ⟨rfl, rfl⟩ := Prod.mk.inj (Res.ok.inj h2)
    simp only [if_true]
    refine rest _ fun g => ?_
    show inclusiveAccess _ _ _ _ _ _ _ = _
    unfold inclusiveAccess
    show (Res.ok (s.1.contains k, s.1) >>= _) = _
    rw [hc]
    rfl
  | false =>
    have hn : ¬ HasKey s.1.values k := fun h => by rw [hkey.2 h] at hc; cases hc
    simp only [Bool.false_eq_true, if_false]
    refine M.esc_bind ?_ fun found s2 h2 => ?_
    · -- the copy from the back to the front
      by_cases hb : HasKey s.2.values k
      · intro w w' s' _
        exact .inr (.inr (.inr ⟨hn, hb⟩))
      · have hf : findKey s.2.values k = none := by
          unfold findKey
          rw [List.findIdx?_eq_none_iff]
          intro e he
          simp only [decide_eq_false_iff_not]
          exact fun h => hb ⟨e.2, h ▸ he⟩
        unfold Unwind.inclusiveDowngrade
        refine M.esc_bind (M.esc_snd ?_) fun o s2 h2 => ?_
        · exact (arrayUse_panics k _ _ s.2).mono fun a' ha => by
            rcases ha with rfl | ⟨n, v, ha⟩
            · exact .inl rfl
            · simp [Array.getMut, hf] at ha
        · rw [M.res_snd', show (arrayUsing.get k InclCell.clone fun _ => InclCell.clone).res s.2 = _ from
            arrayGet_agrees b₁ b₂ s.2 k _ _] at h2
          simp only [arrayGet, Array.getMut, hf] at h2
          obtain ⟨rfl, rfl⟩ := h2
          exact M.esc_pure _ _ _
    · have h3 := (inclusiveDowngrade_agrees (F := level f₁ f₂) (B := level b₁ b₂) (GB := arrayGet (fun _ => 1) b₁ b₂)
        (levels_agree f₁ f₂) (levels_agree b₁ b₂) (fun a k f half => arrayGet_agrees b₁ b₂ a k f half) k s).symm.trans h2
      cases found with
      | false => exact M.esc_pure _ _ _
      | true =>
        simp only [if_true]
        refine rest _ fun g => ?_
        show inclusiveAccess _ _ _ _ _ _ _ = _
        unfold inclusiveAccess
        show (Res.ok (s.1.contains k, s.1) >>= _) = _
        rw [hc]
        show (Byoc.inclusiveDowngrade (level f₁ f₂) (level b₁ b₂) (arrayGet (fun _ => 1) b₁ b₂) s k >>= _) = _
        rw [h3]
        rfl

/-- The states reached from a new `Inclusive` of capacities `m` and `n` by calls and accesses that return, which never push a
key already stored, and by accesses of keys that are in the front or are not stored that panic. -/
inductive Reached (left : Nat → List (K × InclCell V) → List (K × InclCell V)) (m n : Nat) :
    Array K (InclCell V) × Array K (InclCell V) → Prop
  | new : Reached left m n (Array.new m, Array.new n)
  | calls (s s' : Array K (InclCell V) × Array K (InclCell V)) (cs : List (Call K V)) (out : List (K × V)) :
      Reached left m n s → (∀ c ∈ cs, c.Within (· = id) fun _ => True) →
      (both f₁ f₂ b₁ b₂).FreshCalls (cells f₁ f₂ b₁ b₂) visible s cs →
      (both f₁ f₂ b₁ b₂).calls (cells f₁ f₂ b₁ b₂) s cs = .ok (out, s') → Reached left m n s'
  | writePanics (s s' : Array K (InclCell V) × Array K (InclCell V)) (k : K) (f : V → V) (half : Nat → V → V)
      (w w' : Fates) : Reached left m n s → (HasKey s.1.values k ∨ ¬ HasKey s.2.values k) →
      ((using_ f₁ f₂ b₁ b₂ left).getMut k f half).run w s = (none, w', s') → Reached left m n s'
  | readPanics (s s' : Array K (InclCell V) × Array K (InclCell V)) (k : K) (w w' : Fates) : Reached left m n s →
      (HasKey s.1.values k ∨ ¬ HasKey s.2.values k) →
      ((using_ f₁ f₂ b₁ b₂ left).get k id fun _ => id).run w s = (none, w', s') → Reached left m n s'

abbrev Sound (s : Array K (InclCell V) × Array K (InclCell V)) : Prop :=
  WInv (F := level f₁ f₂) (B := level b₁ b₂) (Array.Inv fun _ => 1) (Array.Inv fun _ => 1) Array.values Array.values s

theorem level_lawful (s₁ s₂ : Sorter (K × InclCell V)) :
    Lawful (level s₁ s₂) (Array.Inv fun _ => 1) Array.values fun _ => True := Array.lawful _ _ _

theorem level_get (s₁ s₂ : Sorter (K × InclCell V)) :
    GetLawful (level s₁ s₂) (arrayGet (fun _ => 1) s₁ s₂) (Array.Inv fun _ => 1) Array.values fun _ => True :=
  (Array.getLawful _ _ _).mono fun _ _ _ _ => rfl

theorem level_flushes (s₁ s₂ : Sorter (K × InclCell V)) : Flushes (level s₁ s₂) (Array.Inv fun _ => 1) Array.values :=
  Array.flushes _ _ _

theorem weak_cells : AccessWeak (F := level f₁ f₂) (B := level b₁ b₂) (cells f₁ f₂ b₁ b₂) (Array.Inv fun _ => 1)
    (Array.Inv fun _ => 1) Array.values Array.values :=
  accessWeak (level_lawful f₁ f₂) (level_get f₁ f₂) (level_lawful b₁ b₂) (level_get b₁ b₂)

/-- What histories that return keep. -/
theorem kept (k : K) (cs : List (Call K V)) (s : Array K (InclCell V) × Array K (InclCell V))
    (hI : Sound f₁ f₂ b₁ b₂ s) (hc : ∀ c ∈ cs, c.Within (· = id) (fun _ => True))
    (hf : (both f₁ f₂ b₁ b₂).FreshCalls (cells f₁ f₂ b₁ b₂) visible s cs) (out : List (K × V))
    (s' : Array K (InclCell V) × Array K (InclCell V)) (h : (both f₁ f₂ b₁ b₂).calls (cells f₁ f₂ b₁ b₂) s cs = .ok (out, s')) :
    Sound f₁ f₂ b₁ b₂ s' ∧ ((∀ c ∈ cs, ¬ c.Writes k ∧ ¬ HasKey c.given k) →
      ∀ e ∈ visible s' ++ out, e.1 = k → e ∈ visible s) :=
  calls_weak (level_lawful f₁ f₂) (level_flushes f₁ f₂) (level_lawful b₁ b₂) (fun _ _ => trivial) (level_flushes b₁ b₂)
    (weak_cells f₁ f₂ b₁ b₂) k cs s hI hc hf out s' h

variable {f₁ f₂ b₁ b₂}

/-- A read, of a key that is in the front or not stored, does not change the state. -/
theorem plainly_id {s s' : Array K (InclCell V) × Array K (InclCell V)} {k : K} {o : Option V}
    (hk : HasKey s.1.values k ∨ ¬ HasKey s.2.values k)
    (h : plainly f₁ f₂ b₁ b₂ s k (InclCell.read id) = .ok (o, s')) : s' = s := by
  have hkey : s.1.contains k = true ↔ HasKey s.1.values k := by
    simp only [Array.contains, List.any_eq_true, decide_eq_true_eq]
    exact ⟨fun ⟨e, h1, h2⟩ => ⟨e.2, h2 ▸ h1⟩, fun ⟨v, h⟩ => ⟨_, h, rfl⟩⟩
  unfold plainly inclusiveAccess at h
  change (Res.ok (s.1.contains k, s.1) >>= _) = _ at h
  cases hc : s.1.contains k with
  | true =>
    rw [hc] at h
    have e := (Prod.mk.inj (Res.ok.inj h)).2
    exact e.symm.trans (Prod.ext (getMut_id s.1 k) rfl)
  | false =>
    have hn : ¬ HasKey s.2.values k := hk.resolve_left fun h => by rw [hkey.2 h] at hc; cases hc
    have hf : findKey s.2.values k = none := by
      unfold findKey
      rw [List.findIdx?_eq_none_iff]
      intro e he
      simp only [decide_eq_false_iff_not]
      exact fun h => hn ⟨e.2, h ▸ he⟩
    rw [hc] at h
    simp only [Byoc.inclusiveDowngrade, arrayGet, Array.getMut, hf] at h
    have e := (Prod.mk.inj (Res.ok.inj h)).2
    exact e.symm

/-- What is visible after an access that panics. -/
theorem access_sound {s s' : Array K (InclCell V) × Array K (InclCell V)} (hs : Sound f₁ f₂ b₁ b₂ s) {k : K} {f : V → V}
    {half : Nat → V → V} {w w' : Fates}
    (hk : HasKey s.1.values k ∨ ¬ HasKey s.2.values k)
    (h : ((using_ f₁ f₂ b₁ b₂ left).getMut k f half).run w s = (none, w', s')) :
    Sound f₁ f₂ b₁ b₂ s' ∧ ((visible s').Perm (visible s) ∨
      ∃ n v rest, (visible s).Perm ((k, v) :: rest) ∧ (visible s').Perm ((k, half n v) :: rest)) := by
  rcases use_panics f₁ f₂ b₁ b₂ InclCell.write s k f half w w' s' h with rfl | ⟨o, h1⟩ | ⟨n, o, h1⟩ | h1
  · exact ⟨hs, .inl (List.Perm.refl _)⟩
  · obtain ⟨h2, h3⟩ := weak_cells f₁ f₂ b₁ b₂ s k id hs o s' (.inl ⟨h1, rfl⟩)
    refine ⟨h2, .inl ?_⟩
    cases o with
    | none => exact h3
    | some v => obtain ⟨rest, p1, p2⟩ := h3; exact p2.trans p1.symm
  · obtain ⟨h2, h3⟩ := weak_cells f₁ f₂ b₁ b₂ s k (half n) hs o s' (.inr h1)
    refine ⟨h2, ?_⟩
    cases o with
    | none => exact .inl h3
    | some v => obtain ⟨rest, p1, p2⟩ := h3; exact .inr ⟨n, v, rest, p1, p2⟩
  · rcases hk with hk | hk
    · exact absurd hk h1.1
    · exact absurd h1.2 hk

theorem read_same {s s' : Array K (InclCell V) × Array K (InclCell V)} {k : K}
    {w w' : Fates} (hk : HasKey s.1.values k ∨ ¬ HasKey s.2.values k)
    (h : ((using_ f₁ f₂ b₁ b₂ left).get k id fun _ => id).run w s = (none, w', s')) : s' = s := by
  rcases use_panics f₁ f₂ b₁ b₂ InclCell.read s k id (fun _ => id) w w' s' h with rfl | ⟨o, h1⟩ | ⟨n, o, h1⟩ | h1
  · rfl
  · exact plainly_id hk h1
  · exact plainly_id hk h1
  · rcases hk with hk | hk
    · exact absurd hk h1.1
    · exact absurd h1.2 hk

theorem Reached.sound (k : K) {m n : Nat} {s : Array K (InclCell V) × Array K (InclCell V)}
    (h : Reached f₁ f₂ b₁ b₂ left m n s) : Sound f₁ f₂ b₁ b₂ s := by
  induction h with
  | new => exact ⟨Array.new_inv _ m, Array.new_inv _ n, by simp [Array.new], by simp [Array.new], by simp [Array.new, lk]⟩
  | calls s s' cs out _ h2 h3 h1 ih => exact (kept f₁ f₂ b₁ b₂ k cs s ih h2 h3 out s' h1).1
  | writePanics s s' j f half w w' _ hk h ih => exact (access_sound ih hk h).1
  | readPanics s s' j w w' _ hk h ih => exact read_same hk h ▸ ih

/-! ## C126 -/

/-- **C126 (accesses that return).** In every state, accesses that return are those of the model used everywhere else. -/
theorem C126_returns_partial (s s' : Array K (InclCell V) × Array K (InclCell V)) (w w' : Fates) (k : K) (f : V → V)
    (half : Nat → V → V) (o : Option V) :
    (((using_ f₁ f₂ b₁ b₂ left).get k f half).run w s = (some o, w', s') → (cells f₁ f₂ b₁ b₂).get s k f = .ok (o, s')) ∧
    (((using_ f₁ f₂ b₁ b₂ left).getMut k f half).run w s = (some o, w', s') →
      (cells f₁ f₂ b₁ b₂).getMut s k f = .ok (o, s')) :=
  ⟨fun h => (using_get_agrees f₁ f₂ b₁ b₂ s k f half).symm.trans (M.res_of_run h),
    fun h => (using_getMut_agrees f₁ f₂ b₁ b₂ s k f half).symm.trans (M.res_of_run h)⟩

/-- **C126 (writes that panic).** An access, of a key that is in the front or is not stored, that panics: nothing that can be
seen has changed, or the value is what the user left in the cell and nothing else has changed. -/
theorem C126_write_partial (m n : Nat) (s s' : Array K (InclCell V) × Array K (InclCell V))
    (hs : Reached f₁ f₂ b₁ b₂ left m n s) (k : K) (f : V → V) (half : Nat → V → V) (w w' : Fates)
    (hk : HasKey s.1.values k ∨ ¬ HasKey s.2.values k)
    (h : ((using_ f₁ f₂ b₁ b₂ left).getMut k f half).run w s = (none, w', s')) :
    (visible s').Perm (visible s) ∨
      ∃ i v rest, (visible s).Perm ((k, v) :: rest) ∧ (visible s').Perm ((k, half i v) :: rest) :=
  (access_sound (hs.sound k) hk h).2

/-- **C126 (writes that panic, calls that follow).** In every state, after an access, of a key that is in the front or is not
stored, that panics, the calls and accesses that follow do what they do without it, or what they do after a write that returned,
of the value that the user left in the cell. -/
theorem C126_write_as_partial (s s' : Array K (InclCell V) × Array K (InclCell V)) (k : K) (f : V → V) (half : Nat → V → V)
    (w w' : Fates) (hk : HasKey s.1.values k ∨ ¬ HasKey s.2.values k)
    (h : ((using_ f₁ f₂ b₁ b₂ left).getMut k f half).run w s = (none, w', s')) :
    (∀ cs : List (Call K V),
      (both f₁ f₂ b₁ b₂).calls (cells f₁ f₂ b₁ b₂) s' cs = (both f₁ f₂ b₁ b₂).calls (cells f₁ f₂ b₁ b₂) s cs) ∨
    ∃ i, ∀ cs : List (Call K V), (both f₁ f₂ b₁ b₂).calls (cells f₁ f₂ b₁ b₂) s' cs =
      (both f₁ f₂ b₁ b₂).calls (cells f₁ f₂ b₁ b₂) s (.getMut k (half i) :: cs) := by
  rcases use_panics f₁ f₂ b₁ b₂ InclCell.write s k f half w w' s' h with rfl | ⟨o, h1⟩ | ⟨n, o, h1⟩ | h1
  · exact .inl fun _ => rfl
  · rw [plainly_id hk h1]
    exact .inl fun _ => rfl
  · refine .inr ⟨n, fun cs => ?_⟩
    have h2 : (cells f₁ f₂ b₁ b₂).getMut s k (half n) = .ok (o, s') := h1
    have h3 : (both f₁ f₂ b₁ b₂).calls (cells f₁ f₂ b₁ b₂) s (.getMut k (half n) :: cs) =
        ((both f₁ f₂ b₁ b₂).calls (cells f₁ f₂ b₁ b₂) s' cs >>= fun p => pure (([] : List (K × V)) ++ p.1, p.2)) := by
      simp only [Block.calls, Block.call, h2]
      rfl
    rw [h3]
    cases (both f₁ f₂ b₁ b₂).calls (cells f₁ f₂ b₁ b₂) s' cs <;> rfl
  · rcases hk with hk | hk
    · exact absurd hk h1.1
    · exact absurd h1.2 hk

/-- **C126 (reads that panic).** In every state, a read, of a key that is in the front or is not stored, that panics changes
nothing that can be seen, and what a call or an access does next is what it would have done without the read. -/
theorem C126_read_partial (s s' : Array K (InclCell V) × Array K (InclCell V)) (k : K) (w w' : Fates)
    (hk : HasKey s.1.values k ∨ ¬ HasKey s.2.values k)
    (h : ((using_ f₁ f₂ b₁ b₂ left).get k id fun _ => id).run w s = (none, w', s')) :
    visible s' = visible s ∧ ∀ cs : List (Call K V),
      (both f₁ f₂ b₁ b₂).calls (cells f₁ f₂ b₁ b₂) s' cs = (both f₁ f₂ b₁ b₂).calls (cells f₁ f₂ b₁ b₂) s cs := by
  rw [read_same hk h]
  exact ⟨rfl, fun _ => rfl⟩

/-- **C126 (afterwards).** After such a panic, in any history that returns, every element of a key that is not written nor
pushed, handed back or still there, is the one that was there after the panic: no value is stale. -/
theorem C126_later_partial (m n : Nat) (s s' s₂ : Array K (InclCell V) × Array K (InclCell V))
    (hs : Reached f₁ f₂ b₁ b₂ left m n s) (k : K) (f : V → V) (half : Nat → V → V) (w w' : Fates)
    (hk : HasKey s.1.values k ∨ ¬ HasKey s.2.values k)
    (h : ((using_ f₁ f₂ b₁ b₂ left).getMut k f half).run w s = (none, w', s'))
    (cs : List (Call K V)) (hc : ∀ c ∈ cs, c.Within (· = id) fun _ => True)
    (hf : (both f₁ f₂ b₁ b₂).FreshCalls (cells f₁ f₂ b₁ b₂) visible s' cs) (out : List (K × V))
    (h₂ : (both f₁ f₂ b₁ b₂).calls (cells f₁ f₂ b₁ b₂) s' cs = .ok (out, s₂)) (j : K)
    (hj : ∀ c ∈ cs, ¬ c.Writes j ∧ ¬ HasKey c.given j) :
    ∀ e ∈ visible s₂ ++ out, e.1 = j → e ∈ visible s' :=
  (kept f₁ f₂ b₁ b₂ j cs s' (access_sound (hs.sound k) hk h).1 hc hf out s₂ h₂).2 hj

end General

/-! ## The full statement, and why it does not hold -/

/-- Some functions of the user, called when the front makes room, copy nothing before they panic. -/
abbrev onNat : Using (Array Nat (InclCell Nat) × Array Nat (InclCell Nat)) Nat Nat :=
  using_ cellSorter cellSorter cellSorter cellSorter (fun _ l => l)

/-- C126, the full statement, for `Inclusive<Array, Array>`: a read that panics, after any such history, changes
nothing that can be seen, and the calls that follow return. -/
def C126_full : Prop :=
  ∀ (m n : Nat) (s s' : Array Nat (InclCell Nat) × Array Nat (InclCell Nat)),
    Reached cellSorter cellSorter cellSorter cellSorter (fun _ l => l) m n s → ∀ (k : Nat) (w w' : Fates),
      (onNat.get k id fun _ => id).run w s = (none, w', s') →
      (visible s').Perm (visible s) ∧ ∀ c : Op Nat Nat, (∃ r, twoArrays.step s c = .ok r) → ∃ r, twoArrays.step s' c = .ok r

/-- Two elements in the back; the value of 1 has been changed, which is in the front only. -/
def written : Array Nat (InclCell Nat) × Array Nat (InclCell Nat) :=
  ({ capacity := 1, totalSize := 1, values := [(1, ⟨11, true, true⟩)] },
    { capacity := 2, totalSize := 2, values := [(1, ⟨10, false, true⟩), (2, ⟨20, false, false⟩)] })

theorem written_reached : Reached cellSorter cellSorter cellSorter cellSorter (fun _ l => l) 1 2 written := by
  refine .calls _ _ [.op (.push [(1, 10), (2, 20)]), .getMut 1 (· + 1)] [] .new ?_ ?_ rfl
  · intro c hc
    simp at hc
    rcases hc with rfl | rfl <;> trivial
  · refine ⟨fun _ => by decide, fun out s' h => ⟨fun hn => ?_, fun _ _ _ => trivial⟩⟩
    simpa [Call.given] using hn

/-- A read of 2 makes room in the front for its copy by evicting the one of 1; a function of the user panics then, and the
changed copy is dropped: the value of 1 is the one it had before the write, that had returned. -/
theorem C126_stale :
    let r := (onNat.get 2 id fun _ => id).run [none, none, none, none, some 0] written
    r.1 = none ∧ visible written = [(1, 11), (2, 20)] ∧ visible r.2.2 = [(1, 10), (2, 20)] := by
  decide +kernel

/-- When the panic comes later, as the evicted copy is written to the back, the element 1 is lost. -/
theorem C126_loses :
    let r := (onNat.get 2 id fun _ => id).run [none, none, none, none, none, none, none, none, some 0] written
    r.1 = none ∧ visible written = [(1, 11), (2, 20)] ∧ visible r.2.2 = [(2, 20)] := by
  decide +kernel

/-- One element, in the back, not copied yet. -/
def stored : Array Nat (InclCell Nat) × Array Nat (InclCell Nat) :=
  ({ capacity := 2, totalSize := 0, values := [] }, { capacity := 2, totalSize := 1, values := [(1, ⟨10, false, false⟩)] })

theorem stored_reached : Reached cellSorter cellSorter cellSorter cellSorter (fun _ l => l) 2 2 stored := by
  refine .calls _ _ [.op (.push [(1, 10)])] [] .new ?_ ?_ rfl
  · intro c hc
    simp at hc
    subst hc
    trivial
  · exact ⟨fun _ => by decide, fun _ _ _ => trivial⟩

/-- A read whose `clone` of the value panics: the flag says that the front has a copy, and it has none, so `take` panics, that
returned the element before. -/
theorem C126_take_breaks :
    let r := (onNat.get 1 id fun _ => id).run [none, none, some 0] stored
    r.1 = none ∧ visible r.2.2 = visible stored ∧ (∃ t, twoArrays.step stored (.take 1) = .ok ([(1, 10)], t)) ∧
      twoArrays.step r.2.2 (.take 1) = .panic :=
  ⟨by decide +kernel, by decide +kernel, ⟨_, rfl⟩, rfl⟩

/-- **C126, refuted.** -/
theorem C126_false : ¬ C126_full := by
  intro h
  obtain ⟨h1, h2, h3⟩ := C126_stale
  have := (h 1 2 written ((onNat.get 2 id fun _ => id).run [none, none, none, none, some 0] written).2.2 written_reached 2
    [none, none, none, none, some 0] ((onNat.get 2 id fun _ => id).run [none, none, none, none, some 0] written).2.1
    (Prod.ext h1 rfl)).1
  rw [h2, h3] at this
  exact absurd (this.mem_iff (a := (1, 11))) (by decide)

/-! ## The hypotheses are met -/

/-- A write of 1, which is in the front, that panics while the user changes the value. -/
example :
    let r := (onNat.getMut 1 (· + 5) fun n _ => n).run [none, none, some 9] written
    r.1 = none ∧ visible written = [(1, 11), (2, 20)] ∧ visible r.2.2 = [(1, 9), (2, 20)] ∧ HasKey written.1.values 1 :=
  ⟨by decide +kernel, by decide +kernel, by decide +kernel, ⟨_, List.mem_singleton.2 rfl⟩⟩

/-- The state after it, and after a read of 1 that panics in `eq`, is reached. -/
example :
    let r := (onNat.getMut 1 (· + 5) fun n _ => n).run [none, none, some 9] written
    let r' := (onNat.get 1 id fun _ => id).run [none, some 0] r.2.2
    r'.1 = none ∧ Reached cellSorter cellSorter cellSorter cellSorter (fun _ l => l) 1 2 r'.2.2 := by
  intro r r'
  have h1 : Reached cellSorter cellSorter cellSorter cellSorter (fun _ l => l) 1 2 r.2.2 :=
    .writePanics written r.2.2 1 (· + 5) (fun n _ => n) [none, none, some 9] r.2.1 written_reached
      (.inl ⟨_, List.mem_singleton.2 rfl⟩) rfl
  exact ⟨rfl, .readPanics r.2.2 r'.2.2 1 [none, some 0] r'.2.1 h1 (.inl ⟨_, List.mem_singleton.2 rfl⟩) rfl⟩

/-- A history that goes on after it: a read of 2 evicts the value that the user left, and `take` hands it back. -/
example :
    let r := (onNat.getMut 1 (· + 5) fun n _ => n).run [none, none, some 9] written
    ∃ s₂, twoArrays.calls twoGets r.2.2 [.get 2 id, .op (.takeMultiple [2])] = .ok ([(2, 20)], s₂) ∧
      visible s₂ = [(1, 9)] :=
  ⟨_, rfl, by decide +kernel⟩

end InclusiveUnwindProps
end Byoc
