import Mathlib.Tactic.Ring
import Verif.Proofs.Associative
import Verif.Proofs.Array
import Verif.Props.ArrayProps

/-! # C19, C20: `Associative` -/

namespace Byoc
namespace AssocProps

open ArrayProps

variable {K V : Type}

/-- Every stored element lies in the set its key hashes to. -/
def WellPlaced (hash : K → Nat) {S : Type} (ec : S → List (K × V)) (s : List S) : Prop :=
  ∀ i c, s[i]? = some c → ∀ e ∈ ec c, hash e.1 % s.length = i

section
variable {hash : K → Nat} {C : Block K V} {I : C.State → Prop} {ec : C.State → List (K × V)}

theorem inv_iff {s : List C.State} :
    Associative.Inv hash I ec s ↔ 0 < s.length ∧ (∀ c ∈ s, I c) ∧ WellPlaced hash ec s := by
  constructor
  · rintro ⟨h1, h2⟩
    refine ⟨h1, h2.inv, fun i c hc e he => ?_⟩
    have := (h2 i c hc).2 e he
    simpa using this
  · rintro ⟨h1, h2, h3⟩
    refine ⟨h1, fun i c hc => ⟨h2 c (List.mem_of_getElem? hc), fun e he => ?_⟩⟩
    have := h3 i c hc e he
    simpa using this

theorem popLoop_ok {Pre} (hC : Lawful C I ec Pre) (target : Nat) :
    ∀ (bs : List (Nat × Nat)) (s : List C.State) out s', Associative.Inv hash I ec s →
      Associative.popLoop C target bs s = .ok (out, s') →
      Associative.Inv hash I ec s' ∧ s'.map C.capacity = s.map C.capacity ∧
        (batchElems ec s' ++ out).Perm (batchElems ec s) ∧ (s'.map C.size).sum ≤ (s.map C.size).sum := by
  intro bs
  induction bs with
  | nil =>
    intro s out s' h he
    simp only [Associative.popLoop, Res.ok.injEq, Prod.mk.injEq] at he
    obtain ⟨rfl, rfl⟩ := he
    exact ⟨h, rfl, by simp, Nat.le_refl _⟩
  | cons b bs ih =>
    intro s out s' h he
    obtain ⟨bsz, bi⟩ := b
    simp only [Associative.popLoop] at he
    cases hg : s[bi]? with
    | none => simp [hg, Res.unwrap] at he
    | some c =>
      simp only [hg, Res.unwrap_some, Res.ok_bind] at he
      cases hsub : Res.sub bsz target with
      | panic => simp [hsub] at he
      | ok d =>
        simp only [hsub, Res.ok_bind] at he
        have hI := (h.2 bi c hg).1
        obtain ⟨o1, c', h1, h2, h3, h4, h5⟩ := hC.pop c d hI
        simp only [h1, Res.ok_bind] at he
        cases h6 : Associative.popLoop C target bs (s.set bi c') with
        | panic => simp [h6] at he
        | ok r =>
          obtain ⟨o2, s2⟩ := r
          simp only [h6, Res.ok_bind, Res.pure_eq, Res.ok.injEq, Prod.mk.injEq] at he
          obtain ⟨rfl, rfl⟩ := he
          have hr := Associative.routed_set h.2 hg h2 (fun e he => h4.subset (by simp [he]))
          have hinv : Associative.Inv hash I ec (s.set bi c') :=
            ⟨by simpa using h.1, by simpa using hr⟩
          obtain ⟨g1, g2, g3, g4⟩ := ih _ _ _ hinv h6
          have hle : C.size c' ≤ C.size c := by
            rcases h5 with h5 | h5
            · omega
            · rw [hC.empty_size c' h2 h5]; omega
          refine ⟨g1, g2.trans (Associative.map_set_same h3 hg), ?_, g4.trans ?_⟩
          · obtain ⟨a, b, e1, e2⟩ := Associative.batchElems_set (ec := ec) c' hg
            rw [e2] at g3
            rw [e1]
            perms [g3, h4]
          · clear * - hg hle
            induction s generalizing bi with
            | nil => simp at hg
            | cons x xs ih =>
              cases bi with
              | zero => simp at hg; subst hg; simp; omega
              | succ i =>
                have := ih i (by simpa using hg)
                simp only [List.set_cons_succ, List.map_cons, List.sum_cons]; omega

/-- `pop`, when it returns, conserves elements and keeps them well placed. -/
theorem pop_ok {Pre} (hC : Lawful C I ec Pre) (s : List C.State) (n : Nat) (out : List (K × V))
    (s' : List C.State) (h : Associative.Inv hash I ec s)
    (he : (associative hash C).pop s n = .ok (out, s')) :
    Associative.Inv hash I ec s' ∧ (associative hash C).capacity s' = (associative hash C).capacity s ∧
      (batchElems ec s' ++ out).Perm (batchElems ec s) := by
  simp only [associative, Associative.pop] at he
  split at he
  · cases he; exact ⟨h, rfl, by simp⟩
  · split at he
    · obtain ⟨o, s1, h1, h2, h3, h4⟩ := (associative_core (hash := hash) (hC.toCore.mono (Pre' := fun _ => False) fun _ h => h.elim)
        (fun _ _ h => h)).flush s h
      have : Batch.flush C s = .ok (o, s1) := h1
      rw [this] at he; cases he
      exact ⟨h2, h3, h4⟩
    · cases ht : Associative.targetLoop n ((List.range s.length).zip (s.map C.size)) (s.map C.size).sum with
      | panic => simp [ht] at he
      | ok r =>
        obtain ⟨t, bs⟩ := r
        simp only [ht, Res.ok_bind] at he
        obtain ⟨g1, g2, g3, -⟩ := popLoop_ok hC t bs s out s' h he
        exact ⟨g1, by simp [associative, g2], g3⟩

/-! ### No call changes the number of sets -/

theorem length_takeMultipleLoop : ∀ (s : List C.State) (gs : List (List K)) out ks (s' : List C.State),
    Associative.takeMultipleLoop C s gs = .ok (out, ks, s') → s'.length = s.length := by
  intro s
  induction s with
  | nil => intro gs out ks s' h; cases gs <;> (simp only [Associative.takeMultipleLoop] at h; cases h; rfl)
  | cons c cs ih =>
    intro gs out ks s' h
    cases gs with
    | nil => simp only [Associative.takeMultipleLoop] at h; cases h; rfl
    | cons g gs =>
      simp only [Associative.takeMultipleLoop] at h
      split at h
      · cases h2 : Associative.takeMultipleLoop C cs gs with
        | panic => simp [h2] at h
        | ok r =>
          simp only [h2, Res.ok_bind, Res.pure_eq, Res.ok.injEq] at h
          cases h
          simp [ih _ _ _ _ h2]
      · cases h1 : C.takeMultiple c g with
        | panic => simp [h1] at h
        | ok r =>
          simp only [h1, Res.ok_bind] at h
          cases h2 : Associative.takeMultipleLoop C cs gs with
          | panic => simp [h2] at h
          | ok r =>
            simp only [h2, Res.ok_bind, Res.pure_eq, Res.ok.injEq] at h
            cases h
            simp [ih _ _ _ _ h2]

theorem length_pushLoop : ∀ (s : List C.State) (gs : List (List (K × V))) out (s' : List C.State),
    Associative.pushLoop C s gs = .ok (out, s') → s'.length = s.length := by
  intro s
  induction s with
  | nil => intro gs out s' h; cases gs <;> (simp only [Associative.pushLoop] at h; cases h; rfl)
  | cons c cs ih =>
    intro gs out s' h
    cases gs with
    | nil => simp only [Associative.pushLoop] at h; cases h; rfl
    | cons g gs =>
      simp only [Associative.pushLoop] at h
      cases h1 : C.push c g with
      | panic => simp [h1] at h
      | ok r =>
        simp only [h1, Res.ok_bind] at h
        cases h2 : Associative.pushLoop C cs gs with
        | panic => simp [h2] at h
        | ok r =>
          simp only [h2, Res.ok_bind, Res.pure_eq, Res.ok.injEq] at h
          cases h
          simp [ih _ _ _ h2]

theorem length_flush : ∀ (s : List C.State) out (s' : List C.State),
    Batch.flush C s = .ok (out, s') → s'.length = s.length := by
  intro s
  induction s with
  | nil => intro out s' h; simp only [Batch.flush] at h; cases h; rfl
  | cons c cs ih =>
    intro out s' h
    simp only [Batch.flush] at h
    cases h1 : C.flush c with
    | panic => simp [h1] at h
    | ok r =>
      simp only [h1, Res.ok_bind] at h
      cases h2 : Batch.flush C cs with
      | panic => simp [h2] at h
      | ok r =>
        simp only [h2, Res.ok_bind, Res.pure_eq, Res.ok.injEq] at h
        cases h
        simp [ih _ _ h2]

theorem length_popLoop (target : Nat) : ∀ (bs : List (Nat × Nat)) (s : List C.State) out s',
    Associative.popLoop C target bs s = .ok (out, s') → s'.length = s.length := by
  intro bs
  induction bs with
  | nil => intro s out s' h; simp only [Associative.popLoop] at h; cases h; rfl
  | cons b bs ih =>
    intro s out s' h
    simp only [Associative.popLoop] at h
    cases h0 : Res.unwrap s[b.2]? with
    | panic => simp [h0] at h
    | ok c =>
      simp only [h0, Res.ok_bind] at h
      cases h1 : Res.sub b.1 target with
      | panic => simp [h1] at h
      | ok d =>
        simp only [h1, Res.ok_bind] at h
        cases h2 : C.pop c d with
        | panic => simp [h2] at h
        | ok r =>
          simp only [h2, Res.ok_bind] at h
          cases h3 : Associative.popLoop C target bs (s.set b.2 r.2) with
          | panic => simp [h3] at h
          | ok r' =>
            simp only [h3, Res.ok_bind, Res.pure_eq, Res.ok.injEq] at h
            cases h
            simpa using ih _ _ _ h3

theorem length_step {op : Op K V} {s s' : List C.State} {out : List (K × V)}
    (h : (associative hash C).step s op = .ok (out, s')) : s'.length = s.length := by
  cases op with
  | contains k =>
    simp only [Block.step, associative] at h
    cases h0 : Associative.set hash s.length k with
    | panic => simp [h0] at h
    | ok i =>
      simp only [h0, Res.ok_bind] at h
      cases h1 : Res.unwrap s[i]? with
      | panic => simp [h1] at h
      | ok c =>
        simp only [h1, Res.ok_bind] at h
        cases h2 : C.contains c k with
        | panic => simp [h2] at h
        | ok r =>
          simp only [h2, Res.ok_bind, Res.pure_eq, Res.ok.injEq] at h
          cases h; simp
  | take k =>
    simp only [Block.step, associative] at h
    cases h0 : Associative.set hash s.length k with
    | panic => simp [h0] at h
    | ok i =>
      simp only [h0, Res.ok_bind] at h
      cases h1 : Res.unwrap s[i]? with
      | panic => simp [h1] at h
      | ok c =>
        simp only [h1, Res.ok_bind] at h
        cases h2 : C.take c k with
        | panic => simp [h2] at h
        | ok r =>
          simp only [h2, Res.ok_bind, Res.pure_eq, Res.ok.injEq] at h
          cases h; simp
  | takeMultiple ks =>
    simp only [Block.step, associative, Associative.takeMultiple] at h
    cases h0 : Associative.distribute hash id s.length ks (List.replicate s.length []) with
    | panic => simp [h0] at h
    | ok g =>
      simp only [h0, Res.ok_bind] at h
      cases h1 : Associative.takeMultipleLoop C s g with
      | panic => simp [h1] at h
      | ok r =>
        simp only [h1, Res.ok_bind, Res.pure_eq, Res.ok.injEq] at h
        cases h
        exact length_takeMultipleLoop _ _ _ _ _ h1
  | pop n =>
    simp only [Block.step, associative, Associative.pop] at h
    split at h
    · cases h; rfl
    · split at h
      · exact length_flush _ _ _ h
      · cases ht : Associative.targetLoop n ((List.range s.length).zip (s.map C.size)) (s.map C.size).sum with
        | panic => simp [ht] at h
        | ok r =>
          simp only [ht, Res.ok_bind] at h
          exact length_popLoop _ _ _ _ _ h
  | push l =>
    simp only [Block.step, associative, Associative.push] at h
    cases h0 : Associative.distribute hash Prod.fst s.length l (List.replicate s.length []) with
    | panic => simp [h0] at h
    | ok g =>
      simp only [h0, Res.ok_bind] at h
      exact length_pushLoop _ _ _ _ h
  | flush => exact length_flush _ _ _ h

theorem length_run {ops : List (Op K V)} : ∀ {s s' : List C.State} {out : List (K × V)},
    (associative hash C).run s ops = .ok (out, s') → s'.length = s.length := by
  induction ops with
  | nil => intro s s' out h; cases h; rfl
  | cons op ops ih =>
    intro s s' out h
    simp only [Block.run] at h
    cases h1 : (associative hash C).step s op with
    | panic => simp [h1] at h
    | ok r =>
      obtain ⟨o1, s1⟩ := r
      simp only [h1, Res.ok_bind] at h
      cases h2 : (associative hash C).run s1 ops with
      | panic => simp [h2] at h
      | ok r =>
        obtain ⟨o2, s2⟩ := r
        simp only [h2, Res.ok_bind, Res.pure_eq, Res.ok.injEq] at h
        cases h
        exact (ih h2).trans (length_step h1)

/-- **C19 (placement, every history).** Starting from any number of empty sets (at least one), after
any history that returned (including `pop`), every stored element lies in the set its key hashes to,
the capacity is unchanged and no element was lost or invented. -/
theorem C19_associative_history (hC : Lawful C I ec fun _ => True) (s : List C.State) (hne : s ≠ [])
    (hI : ∀ c ∈ s, I c) (hempty : ∀ c ∈ s, ec c = []) (ops : List (Op K V)) (out : List (K × V))
    (s' : List C.State) (hr : (associative hash C).run s ops = .ok (out, s')) :
    s'.length = s.length ∧ WellPlaced hash ec s' ∧
      (associative hash C).capacity s' = (associative hash C).capacity s ∧
      (associative hash C).size s' ≤ (associative hash C).capacity s ∧
      (List.flatMap ec s' ++ out).Perm (ops.flatMap Op.given) := by
  have core := associative_core (hash := hash) hC.toCore (fun _ _ _ => trivial)
  have key : ∀ (ops : List (Op K V)) (s : List C.State) out (s' : List C.State),
      Associative.Inv hash I ec s → (associative hash C).run s ops = .ok (out, s') →
      Associative.Inv hash I ec s' ∧ (associative hash C).capacity s' = (associative hash C).capacity s ∧
      (batchElems ec s' ++ out).Perm (batchElems ec s ++ ops.flatMap Op.given) := by
    intro ops
    induction ops with
    | nil => intro s out s' h he; cases he; exact ⟨h, rfl, by simp⟩
    | cons op ops ih =>
      intro s out s' h he
      have step : ∀ o s1, (associative hash C).step s op = .ok (o, s1) → Associative.Inv hash I ec s1 ∧
          (associative hash C).capacity s1 = (associative hash C).capacity s ∧
          (batchElems ec s1 ++ o).Perm (batchElems ec s ++ op.given) := by
        intro o s1 h1
        by_cases hp : op.NotPop
        · obtain ⟨o2, s2, g1, g2, g3, g4⟩ := core.step s h op (okTrue op) hp
          have := g1.symm.trans h1
          cases this
          exact ⟨g2, g3, g4⟩
        · cases op with
          | pop n =>
            obtain ⟨g1, g2, g3⟩ := pop_ok hC s n o s1 h h1
            exact ⟨g1, g2, by simpa [Op.given] using g3⟩
          | _ => exact absurd trivial hp
      simp only [Block.run] at he
      cases h1 : (associative hash C).step s op with
      | panic => simp [h1] at he
      | ok r =>
        obtain ⟨o1, s1⟩ := r
        simp only [h1, Res.ok_bind] at he
        cases h2 : (associative hash C).run s1 ops with
        | panic => simp [h2] at he
        | ok r =>
          obtain ⟨o2, s2⟩ := r
          simp only [h2, Res.ok_bind, Res.pure_eq, Res.ok.injEq] at he
          cases he
          obtain ⟨a1, a2, a3⟩ := step _ _ h1
          obtain ⟨b1, b2, b3⟩ := ih _ _ _ a1 h2
          refine ⟨b1, b2.trans a2, ?_⟩
          simp only [List.flatMap_cons]
          perms [a3, b3]
  have h0 : Associative.Inv hash I ec s := inv_iff.2 ⟨List.length_pos_of_ne_nil hne, hI, by
    intro i c hc e he
    rw [hempty c (List.mem_of_getElem? hc)] at he
    simp at he⟩
  obtain ⟨k1, k2, k3⟩ := key ops s out s' h0 hr
  have hb := core.bounded s' k1
  have he : batchElems ec s = [] := List.flatMap_eq_nil_iff.2 hempty
  rw [he, List.nil_append] at k3
  refine ⟨?_, (inv_iff.1 k1).2.2, k2, hb.trans k2.le, k3⟩
  exact length_run hr

/-- **C19 (contract).** Everything but `pop` obeys the contract, over every history. -/
theorem C19_associative_contract (hC : Lawful C I ec fun _ => True) (s : List C.State)
    (hne : s ≠ []) (hI : ∀ c ∈ s, I c) (hw : WellPlaced hash ec s) (ops : List (Op K V))
    (hops : ∀ op ∈ ops, op.NotPop) :
    ∃ out s', (associative hash C).run s ops = .ok (out, s') ∧ WellPlaced hash ec s' ∧
      (associative hash C).size s' ≤ (associative hash C).capacity s' ∧
      (List.flatMap ec s' ++ out).Perm (s.flatMap ec ++ ops.flatMap Op.given) := by
  obtain ⟨out, s', h1, h2, h3, -, h5⟩ :=
    (associative_core (hash := hash) hC.toCore (fun _ _ _ => trivial)).run ops
      (fun op ho => ⟨okTrue op, hops op ho⟩) s (inv_iff.2 ⟨List.length_pos_of_ne_nil hne, hI, hw⟩)
  exact ⟨out, s', h1, (inv_iff.1 h2).2.2, h3, h5⟩

/-- **C19 (lookup).** `contains(k)` and `take(k)` consult only the set of `k`, and the answer is right
for the whole container. -/
theorem C19_associative_lookup (hC : Lawful C I ec fun _ => True) (s : List C.State)
    (hne : s ≠ []) (hI : ∀ c ∈ s, I c) (hw : WellPlaced hash ec s) (k : K) :
    ∃ c b c₁ o c₂, s[hash k % s.length]? = some c ∧
      C.contains c k = .ok (b, c₁) ∧
      (associative hash C).contains s k = .ok (b, s.set (hash k % s.length) c₁) ∧
      (b = true ↔ HasKey (s.flatMap ec) k) ∧
      C.take c k = .ok (o, c₂) ∧
      (associative hash C).take s k = .ok (o, s.set (hash k % s.length) c₂) ∧
      (o.isSome ↔ HasKey (s.flatMap ec) k) := by
  have hInv : Associative.Inv hash I ec s := inv_iff.2 ⟨List.length_pos_of_ne_nil hne, hI, hw⟩
  obtain ⟨c, hc, hIc, hset⟩ := Associative.getSet hInv k
  have hk := Associative.hasKey_iff hInv hc
  obtain ⟨b, c₁, h1, -, -, -, -, h6⟩ := hC.contains c k hIc
  obtain ⟨o, c₂, g1, -, -, g4⟩ := hC.take c k hIc
  refine ⟨c, b, c₁, o, c₂, hc, h1, ?_, ?_, g1, ?_, ?_⟩
  · simp [associative, hset, hc, h1]
  · rw [h6]; exact hk.symm
  · simp [associative, hset, hc, g1]
  · refine Iff.trans ?_ hk.symm
    cases o with
    | none => simpa using g4.1
    | some e =>
      simp only [Option.isSome_some, true_iff]
      exact ⟨e.2, g4.2.subset (by rw [← g4.1]; simp)⟩

/-! ## C20: `pop` -/

/-- **C20, what holds (1)**: asking for nothing, or for at least the whole size, works: nothing is
removed, or everything is. -/
theorem C20_partial_extremes (hC : Lawful C I ec fun _ => True) (fC : Flushes C I ec)
    (s : List C.State) (hI : ∀ c ∈ s, I c) (n : Nat) :
    (n = 0 → (associative hash C).pop s n = .ok ([], s)) ∧
    ((associative hash C).size s ≤ n → 0 < (associative hash C).size s → ∃ out s',
      (associative hash C).pop s n = .ok (out, s') ∧ List.flatMap ec s' = [] ∧
      (associative hash C).size s' = 0 ∧ out.Perm (s.flatMap ec)) := by
  constructor
  · rintro rfl; simp [associative, Associative.pop]
  · intro h1 h2
    obtain ⟨out, s', h3, h4, h5⟩ := Batch.flush_empties fC s hI
    obtain ⟨out2, s2, g3, g4, -⟩ := Batch.flush_spec hC.toCore s hI
    have := h3.symm.trans g3
    cases this
    simp only [associative] at h1 h2
    refine ⟨out, s', ?_, h4, ?_, h5⟩
    · simp only [associative, Associative.pop]
      rw [if_neg (by omega), if_pos (by omega)]
      exact h3
    · simp only [associative]
      have : ∀ c ∈ s', ec c = [] := List.flatMap_eq_nil_iff.1 h4
      clear * - g4 this hC
      induction s' with
      | nil => rfl
      | cons c cs ih =>
        rw [List.map_cons, List.sum_cons, hC.empty_size c (g4 c (by simp)) (this c (by simp)),
          ih (fun d hd => g4 d (by simp [hd])) (fun d hd => this d (by simp [hd]))]

/-- **C20, what holds (2)**: when `pop` returns, it returned exactly what it removed and what remains is
well placed. -/
theorem C20_partial_conserves (hC : Lawful C I ec fun _ => True) (s : List C.State)
    (hne : s ≠ []) (hI : ∀ c ∈ s, I c) (hw : WellPlaced hash ec s) (n : Nat) (out : List (K × V))
    (s' : List C.State) (h : (associative hash C).pop s n = .ok (out, s')) :
    (List.flatMap ec s' ++ out).Perm (s.flatMap ec) ∧ WellPlaced hash ec s' := by
  obtain ⟨h1, -, h3⟩ := pop_ok hC s n out s' (inv_iff.2 ⟨List.length_pos_of_ne_nil hne, hI, hw⟩) h
  exact ⟨h3, (inv_iff.1 h1).2.2⟩

/-! ### When `pop` returns -/

/-- `0 + 1 + … + (i - 1)`. -/
def tri : Nat → Nat
  | 0 => 0
  | i + 1 => tri i + i

/-- With `m` sets, when `d` is to be left in the container, the set number `i` is one the search of a common
size ends at. -/
def Stops (m d i : Nat) : Prop := d < (i + 1) * (m - i + 1) + tri i

instance (m d i : Nat) : Decidable (Stops m d i) := inferInstanceAs (Decidable (_ < _))

/-- The search of a common size, from set number `i` on. -/
theorem targetLoop_exact (size total m : Nat) (hs : size < total) : ∀ (L : List (Nat × Nat)) (i p : Nat),
    L.length + i = m → (∀ (k : Nat) b, L[k]? = some b → b.1 = i + k) → p + tri i = total → size < p →
    (Associative.targetLoop size L p = .panic ∧ ∀ k, k < L.length → ¬ Stops m (total - size) (i + k)) ∨
    (∃ t k, Associative.targetLoop size L p = .ok (t, L.drop k) ∧ k < L.length ∧ t ≤ i + k ∧
      Stops m (total - size) (i + k) ∧ ∀ k', k' < k → ¬ Stops m (total - size) (i + k'))
  | [], i, p, _, _, _, hp => by
    left
    refine ⟨?_, by simp⟩
    simp [Associative.targetLoop, Res.sub, Nat.le_of_lt hp]
  | (a, b) :: L, i, p, hlen, hfst, htri, hp => by
    have ha : a = i := by simpa using hfst 0 (a, b) rfl
    subst ha
    simp only [List.length_cons] at hlen
    have hm : m - a + 1 = L.length + 1 + 1 := by omega
    have hstop : Stops m (total - size) a ↔ a ≥ (p - size) / (L.length + 1 + 1) := by
      unfold Stops
      rw [hm]
      have : a ≥ (p - size) / (L.length + 1 + 1) ↔ p - size < (a + 1) * (L.length + 1 + 1) := by
        rw [← Nat.div_lt_iff_lt_mul (by omega)]; omega
      rw [this]
      omega
    simp only [Associative.targetLoop]
    rw [Res.sub_ok (Nat.le_of_lt hp)]
    simp only [Res.ok_bind]
    by_cases hc : a ≥ (p - size) / (L.length + 1 + 1)
    · right
      refine ⟨(p - size) / (L.length + 1 + 1), 0, ?_, by simp, by simpa using hc, hstop.2 hc, by simp⟩
      rw [if_pos hc]
      rfl
    · rw [if_neg hc]
      have hlt : a < p - size := by
        have h1 : a < (p - size) / (L.length + 1 + 1) := by omega
        exact Nat.lt_of_lt_of_le h1 (Nat.div_le_self _ _)
      rw [Res.sub_ok (by omega)]
      simp only [Res.ok_bind]
      rw [if_pos (by omega)]
      have ih := targetLoop_exact size total m hs L (a + 1) (p - a) (by omega)
        (fun k x hx => by
          have := hfst (k + 1) x (by simpa using hx)
          omega)
        (by simp only [tri]; omega) (by omega)
      rcases ih with ⟨h1, h2⟩ | ⟨t, k, h1, h2, h3, h4, h5⟩
      · left
        refine ⟨h1, fun k hk => ?_⟩
        cases k with
        | zero => exact fun h => hc (hstop.1 h)
        | succ k =>
          have := h2 k (by simpa using hk)
          rwa [show a + (k + 1) = a + 1 + k by omega]
      · right
        refine ⟨t, k + 1, by simpa using h1, by simpa using h2, by omega, ?_, ?_⟩
        · rwa [show a + (k + 1) = a + 1 + k by omega]
        · intro k' hk'
          cases k' with
          | zero => exact fun h => hc (hstop.1 h)
          | succ k' =>
            have := h5 k' (by omega)
            rwa [show a + (k' + 1) = a + 1 + k' by omega]

/-- The evictions: they panic exactly when one of the sets numbers is too large. -/
theorem popLoop_exact {Pre} (hC : Lawful C I ec Pre) (target : Nat) :
    ∀ (bs : List (Nat × Nat)) (s : List C.State), (∀ c ∈ s, I c) → (∀ b ∈ bs, target ≤ b.1) →
      ((∃ out s', Associative.popLoop C target bs s = .ok (out, s')) ↔ ∀ b ∈ bs, b.2 < s.length)
  | [], s, _, _ => by simp [Associative.popLoop]
  | (b, j) :: bs, s, hI, ht => by
    simp only [Associative.popLoop, List.mem_cons, forall_eq_or_imp]
    by_cases hj : j < s.length
    · have hc : s[j]? = some s[j] := List.getElem?_eq_getElem hj
      have hIc := hI _ (List.getElem_mem hj)
      obtain ⟨o1, c', h1, h2, -⟩ := hC.pop s[j] (b - target) hIc
      have ih := popLoop_exact hC target bs (s.set j c')
        (fun c hc => by
          rcases List.mem_or_eq_of_mem_set hc with hc | rfl
          · exact hI c hc
          · exact h2) (fun b hb => ht b (by simp [hb]))
      simp only [List.length_set] at ih
      rw [hc, Res.unwrap_some, Res.ok_bind, Res.sub_ok (ht (b, j) (by simp)), Res.ok_bind, h1, Res.ok_bind]
      constructor
      · rintro ⟨out, s', h⟩
        refine ⟨hj, ih.1 ?_⟩
        cases h6 : Associative.popLoop C target bs (s.set j c') with
        | panic => simp [h6] at h
        | ok r => exact ⟨r.1, r.2, rfl⟩
      · rintro ⟨-, h⟩
        obtain ⟨out, s', h'⟩ := ih.2 h
        exact ⟨o1 ++ out, s', by simp only [h', Res.ok_bind, Res.pure_eq]⟩
    · have hn : s[j]? = none := List.getElem?_eq_none (by omega)
      rw [hn]
      constructor
      · rintro ⟨out, s', h⟩
        simp [Res.unwrap] at h
      · rintro ⟨h, -⟩
        exact (hj h).elim

/-- **C20 (exactly when `pop` returns).** `pop(n)` on `m` sets returns when `n` is 0 or at least `size()`, and
otherwise exactly when the search of a common size ends at some set, and this set and all the following ones hold
less than `m` (the sizes are used as set numbers). -/
theorem C20_exact (hC : Lawful C I ec fun _ => True) (s : List C.State) (hI : ∀ c ∈ s, I c) (n : Nat) :
    (∃ out s', (associative hash C).pop s n = .ok (out, s')) ↔
      n = 0 ∨ (associative hash C).size s ≤ n ∨
      ∃ i, i < s.length ∧ Stops s.length ((associative hash C).size s - n) i ∧
        (∀ i', i' < i → ¬ Stops s.length ((associative hash C).size s - n) i') ∧
        ∀ (j : Nat) c, i ≤ j → s[j]? = some c → C.size c < s.length := by
  simp only [associative, Associative.pop]
  by_cases h0 : n = 0 ∨ (s.map C.size).sum = 0
  · rw [if_pos h0]
    constructor
    · rintro -
      rcases h0 with h0 | h0
      · exact .inl h0
      · exact .inr (.inl (by omega))
    · rintro -
      exact ⟨[], s, rfl⟩
  · rw [if_neg h0]
    by_cases h1 : n ≥ (s.map C.size).sum
    · rw [if_pos h1]
      constructor
      · rintro -; exact .inr (.inl h1)
      · rintro -
        obtain ⟨out, s', h, -⟩ := Batch.flush_spec hC.toCore s hI
        exact ⟨out, s', h⟩
    · rw [if_neg h1]
      set B := (List.range s.length).zip (s.map C.size) with hB
      have hBl : B.length = s.length := by simp [hB]
      have hBk : ∀ (k : Nat) b, B[k]? = some b → b.1 = k ∧ (s[k]?).map C.size = some b.2 := by
        intro k b hb
        rw [hB, List.getElem?_zip_eq_some] at hb
        obtain ⟨a1, a2⟩ := hb
        have hk := (List.getElem?_eq_some_iff.1 a1).1
        simp only [List.length_range] at hk
        rw [List.getElem?_range hk] at a1
        refine ⟨(Option.some.inj a1).symm, ?_⟩
        rw [← List.getElem?_map]; exact a2
      rcases targetLoop_exact n (s.map C.size).sum s.length (by omega) B 0 (s.map C.size).sum (by omega)
        (fun k b hb => by rw [Nat.zero_add]; exact (hBk k b hb).1) (by simp [tri]) (by omega) with
        ⟨g1, g2⟩ | ⟨t, k, g1, g2, g3, g4, g5⟩
      · rw [g1]
        constructor
        · rintro ⟨out, s', h⟩; simp at h
        · rintro (h | h | ⟨i, a1, a2, -⟩)
          · exact (h0 (.inl h)).elim
          · exact (h1 h).elim
          · have := g2 i (by omega)
            rw [Nat.zero_add] at this
            exact (this a2).elim
      · rw [g1]
        simp only [Res.ok_bind]
        simp only [Nat.zero_add] at g3 g4 g5
        have hdrop : ∀ (j : Nat), (B.drop k)[j]? = B[k + j]? := fun j => List.getElem?_drop
        rw [popLoop_exact hC t (B.drop k) s hI (fun b hb => by
          obtain ⟨j, hj⟩ := List.getElem?_of_mem hb
          rw [hdrop] at hj
          have := (hBk _ _ hj).1
          omega)]
        constructor
        · intro h
          refine .inr (.inr ⟨k, by omega, g4, g5, fun j c hj hc => ?_⟩)
          have hjl := (List.getElem?_eq_some_iff.1 hc).1
          have hbj : B[j]? = some B[j] := List.getElem?_eq_getElem (by omega)
          have h2 := (hBk j _ hbj).2
          rw [hc] at h2
          have h3 := h B[j] (List.mem_of_getElem? (i := j - k) (by rw [hdrop, show k + (j - k) = j by omega]; exact hbj))
          simp only [Option.map_some, Option.some.injEq] at h2
          omega
        · rintro (h | h | ⟨i, a1, a2, a3, a4⟩)
          · exact (h0 (.inl h)).elim
          · exact (h1 h).elim
          · have hik : i = k := by
              rcases Nat.lt_trichotomy i k with h | h | h
              · exact (g5 i h a2).elim
              · exact h
              · exact (a3 k h g4).elim
            subst hik
            intro b hb
            obtain ⟨j, hj⟩ := List.getElem?_of_mem hb
            rw [hdrop] at hj
            obtain ⟨h2, h3⟩ := hBk _ _ hj
            obtain ⟨c, hc, h4⟩ := Option.map_eq_some_iff.1 h3
            have := a4 (i + j) c (by omega) hc
            omega

/-- No set ends the search when much is to be left. -/
theorem not_stops {m d i : Nat} (hi : i < m) (hd : m + 1 + tri m ≤ d) : ¬ Stops m d i := by
  have key : ∀ k, k + i < m → (i + 1) * (m - i + 1) + tri i ≤ (k + i + 1) * (m - (k + i) + 1) + tri (k + i) := by
    intro k
    induction k with
    | zero => intro _; simp
    | succ k ih =>
      intro h
      refine (ih (by omega)).trans ?_
      obtain ⟨r, hr⟩ : ∃ r, m = k + i + 1 + r := ⟨m - (k + i + 1), by omega⟩
      have h1 : m - (k + i) + 1 = r + 2 := by omega
      have h2 : m - (k + 1 + i) + 1 = r + 1 := by omega
      have h3 : tri (k + 1 + i) = tri (k + i) + (k + i) := by
        rw [show k + 1 + i = k + i + 1 by omega]; rfl
      rw [h1, h2, h3]
      have h4 : (k + i + 1) * (r + 2) = (k + i + 1) * (r + 1) + (k + i + 1) := by ring
      have h5 : (k + 1 + i + 1) * (r + 1) = (k + i + 1) * (r + 1) + (r + 1) := by ring
      rw [h4, h5]
      omega
  have h := key (m - 1 - i) (by omega)
  have e : m - 1 - i + i = m - 1 := by omega
  rw [e] at h
  obtain ⟨q, rfl⟩ : ∃ q, m = q + 1 := ⟨m - 1, by omega⟩
  simp only [Nat.add_sub_cancel, tri] at h hd
  have e2 : q + 1 - q + 1 = 2 := by omega
  rw [e2] at h
  unfold Stops
  omega

/-- **C20 (large caches).** With `m` sets, `pop(n)` panics whenever at least `m + 1 + m (m - 1) / 2` is to be left
in the container. -/
theorem C20_large_panics (hC : Lawful C I ec fun _ => True) (s : List C.State) (hI : ∀ c ∈ s, I c) (n : Nat)
    (h0 : n ≠ 0) (hl : n + (s.length + 1 + s.length * (s.length - 1) / 2) ≤ (associative hash C).size s) :
    (associative hash C).pop s n = .panic := by
  have htri : ∀ m, tri m * 2 = m * (m - 1) := by
    intro m
    induction m with
    | zero => rfl
    | succ m ih =>
      cases m with
      | zero => rfl
      | succ m =>
        rw [tri, Nat.add_mul, ih]
        simp only [Nat.add_sub_cancel]
        ring
  have ht : tri s.length = s.length * (s.length - 1) / 2 := by
    rw [← htri, Nat.mul_div_cancel _ (by omega)]
  cases hp : (associative hash C).pop s n with
  | panic => rfl
  | ok r =>
    exfalso
    rcases (C20_exact hC s hI n).1 ⟨r.1, r.2, hp⟩ with h | h | ⟨i, h1, h2, -⟩
    · exact h0 h
    · omega
    · exact not_stops h1 (by rw [ht]; omega) h2

/-- With a single set, every `pop(n)` with `0 < n < size()` panics, whatever the container. -/
theorem C20_single_set_panics (c : C.State) (n : Nat) (h0 : 0 < n) (h1 : n < C.size c) :
    (associative hash C).pop [c] n = .panic := by
  simp only [associative, Associative.pop]
  have e1 : ¬ (n = 0 ∨ (List.map C.size [c]).sum = 0) := by simp; omega
  have e2 : ¬ (n ≥ (List.map C.size [c]).sum) := by simp; omega
  rw [if_neg e1, if_neg e2]
  have hz : (List.range [c].length).zip (List.map C.size [c]) = [(0, C.size c)] := rfl
  rw [hz]
  have hs : (List.map C.size [c]).sum = C.size c := by simp
  rw [hs]
  simp only [Associative.targetLoop]
  rw [Res.sub_ok (Nat.le_of_lt h1)]
  simp only [Res.ok_bind, List.length_nil, Nat.zero_add]
  by_cases ht : 0 ≥ (C.size c - n) / (1 + 1)
  · rw [if_pos ht]
    have : C.size c - n < 2 := by omega
    have hidx : ([c] : List C.State)[C.size c]? = none := by simp; omega
    simp [Associative.popLoop, hidx, Res.unwrap]
  · rw [if_neg ht]
    rw [Res.sub_ok (Nat.zero_le _)]
    simp only [Res.ok_bind, Nat.sub_zero]
    have hgt : C.size c > n := h1
    rw [if_pos hgt]
    simp [Res.sub, Nat.le_of_lt h1]

end

/-- **C20, full statement** for Arrays of unit elements: `pop(n)` returns, and frees `n` or empties
the container. -/
def C20_full : Prop :=
  ∀ (caps : List Nat) (ops : List (Op Nat Nat)) (out : List (Nat × Nat)) (s : List (Array Nat Nat)),
    caps ≠ [] →
    (associative id (arrayBlock (fun _ => 1) natSorter natSorter)).run (caps.map Array.new) ops = .ok (out, s) →
    ∀ n, ∃ out s', (associative id (arrayBlock (fun _ => 1) natSorter natSorter)).pop s n = .ok (out, s') ∧
      ((associative id (arrayBlock (fun _ => 1) natSorter natSorter)).size s' + n ≤
        (associative id (arrayBlock (fun _ => 1) natSorter natSorter)).size s ∨
       (associative id (arrayBlock (fun _ => 1) natSorter natSorter)).size s' = 0)

/-- It is false: two sets of two elements each, `pop(1)` panics. -/
theorem C20_false : ¬ C20_full := by
  intro h
  obtain ⟨out, s', h1, -⟩ := h [2, 2] [.push [(0, 1), (1, 1), (2, 1), (3, 1)]] []
    [{ capacity := 2, totalSize := 2, values := [(0, 1), (2, 1)] },
     { capacity := 2, totalSize := 2, values := [(1, 1), (3, 1)] }] (by simp) rfl 1
  have h2 : (associative id (arrayBlock (fun _ => 1) natSorter natSorter)).pop
    ([{ capacity := 2, totalSize := 2, values := [(0, 1), (2, 1)] },
     { capacity := 2, totalSize := 2, values := [(1, 1), (3, 1)] }] : List (Array Nat Nat)) 1 = .panic := rfl
  have := h2.symm.trans h1
  cases this

/-- Even when it does not panic it may free too little: three sets of one element, `pop(2)` frees 1 … -/
example : ∃ s' out, (associative id (arrayBlock (fun _ => 1) natSorter natSorter)).pop
    ([{ capacity := 1, totalSize := 1, values := [(0, 1)] },
      { capacity := 1, totalSize := 1, values := [(1, 1)] },
      { capacity := 1, totalSize := 1, values := [(2, 1)] }] : List (Array Nat Nat)) 2 = .ok (out, s') ∧
    out = [(1, 1)] := ⟨_, _, rfl, rfl⟩

/-! ## Non-vacuity -/

/-- Three sets, six elements. -/
def demo : List (Array Nat Nat) :=
  [{ capacity := 2, totalSize := 2, values := [(0, 1), (3, 1)] },
   { capacity := 2, totalSize := 2, values := [(1, 1), (4, 1)] },
   { capacity := 2, totalSize := 1, values := [(5, 1)] }]

example : (associative id (arrayBlock (fun _ => 1) natSorter natSorter)).run
    ([2, 2, 2].map Array.new) [.push [(0, 1), (1, 1), (3, 1), (4, 1)], .push [(5, 1)]] = .ok ([], demo) := rfl

theorem demo_wellPlaced : WellPlaced (id : Nat → Nat) Array.values demo := by
  intro i c hc e he
  match i with
  | 0 => simp [demo] at hc; subst hc; simp at he; rcases he with rfl | rfl <;> rfl
  | 1 => simp [demo] at hc; subst hc; simp at he; rcases he with rfl | rfl <;> rfl
  | 2 => simp [demo] at hc; subst hc; simp at he; subst he; rfl
  | n + 3 => simp [demo] at hc

theorem demo_inv : ∀ c ∈ demo, Array.Inv (fun _ => 1) c := by
  intro c hc
  simp only [demo, List.mem_cons, List.not_mem_nil, or_false] at hc
  rcases hc with rfl | rfl | rfl <;> exact ⟨rfl, by decide⟩

example := C19_associative_lookup (hash := id) (Array.lawful (K := Nat) (V := Nat) (fun _ => 1) natSorter natSorter)
  demo (List.cons_ne_nil _ _) demo_inv demo_wellPlaced 4

/-- All these sets hold less than three elements. -/
theorem demo_small : ∀ c ∈ demo, c.totalSize < 3 := by decide

/-- `C20_exact` on these three sets: `pop(1)` returns (the search ends at the second set, and the second and the
third hold less than three elements) … -/
example : ∃ out s', (associative (id : Nat → Nat) (arrayBlock (V := Nat) (fun _ => 1) natSorter natSorter)).pop demo 1 =
    .ok (out, s') :=
  (C20_exact (hash := id) (Array.lawful (K := Nat) (V := Nat) (fun _ => 1) natSorter natSorter) demo demo_inv 1).2
    (.inr (.inr ⟨1, by decide, by decide, by decide, fun _ c _ h2 => demo_small c (List.mem_of_getElem? h2)⟩))

/-- Two sets of two and three elements. -/
def demo2 : List (Array Nat Nat) :=
  [{ capacity := 3, totalSize := 2, values := [(0, 1), (2, 1)] },
   { capacity := 3, totalSize := 3, values := [(1, 1), (3, 1), (5, 1)] }]

theorem demo2_inv : ∀ c ∈ demo2, Array.Inv (fun _ => 1) c := by
  intro c hc
  simp only [demo2, List.mem_cons, List.not_mem_nil, or_false] at hc
  rcases hc with rfl | rfl <;> exact ⟨rfl, by decide⟩

/-- … and `C20_large_panics` on two sets: `pop(1)` panics. -/
example : (associative (id : Nat → Nat) (arrayBlock (V := Nat) (fun _ => 1) natSorter natSorter)).pop demo2 1 = .panic :=
  C20_large_panics (hash := id) (Array.lawful (K := Nat) (V := Nat) (fun _ => 1) natSorter natSorter) demo2
    demo2_inv 1 (by decide) (by decide)

end AssocProps
end Byoc
