import Verif.Proofs.BTreeUnwind
import Verif.Props.AccessUnwindProps

/-!
# C125: panics of the user's functions in accesses of a `BTree`

A cell of a `BTree` owns the element, which its drop pushes back, also when the user of the cell panics.
-/

set_option linter.unusedSectionVars false

namespace Byoc
namespace BTreeUnwindProps

open Unwind UnwindProps AccessUnwindProps BTreeProps

variable {K V : Type} [LinearOrder K] [LinearOrder V]

/-- What the user does, when its functions do what `w` says: what is seen (`none`: a panic), and the `BTree` afterwards. -/
def act (sz : K × V → Nat) (t : BTree K V) (w : Fates) : Act K V → Option (Seen K V) × BTree K V
  | .call op => let r := attempt (btree sz) t w op; (r.1.map .obs, r.2)
  | .get k => let r := (btreeUse sz k id fun _ => id).run w t; (r.1.map .value, r.2.2)
  | .getMut k f half => let r := (btreeUse sz k f half).run w t; (r.1.map .value, r.2.2)

/-- A history in which the user catches the panics and goes on. -/
def acts (sz : K × V → Nat) (t : BTree K V) : List (Act K V × Fates) → List (Option (Seen K V)) × BTree K V
  | [] => ([], t)
  | (a, w) :: l =>
    let r := act sz t w a
    let rs := acts sz r.2 l
    (r.1 :: rs.1, rs.2)

/-- Batches have distinct keys, uses do not change the size of elements; and the functions of the user return in the calls as
in C113 (`Mild`), and `element_size` returns when an access takes the element out. -/
def Fine (sz : K × V → Nat) : Act K V → Fates → Prop
  | .call op, w => op.Ok (fun l : List (K × V) => (l.map Prod.fst).Nodup) ∧ Mild op w
  | .get _, w => ∀ n w1, w ≠ some n :: w1
  | .getMut _ f half, w => (∀ n w1, w ≠ some n :: w1) ∧ (∀ k v, sz (k, f v) = sz (k, v)) ∧
      ∀ n k v, sz (k, half n v) = sz (k, v)

/-- A call, or an access in which only the user of the cell panics. -/
def InCell : Act K V → Fates → Prop
  | .call _, _ => True
  | _, w => ∃ n w1, w = none :: some n :: w1

/-- One access of a valid `BTree`. -/
theorem use_kept (sz : K × V → Nat) (hpos : ∀ e, 0 < sz e) {t t' : BTree K V} (hI : BTree.Inv sz t) {k : K}
    {f : V → V} {half : Nat → V → V} (hf : ∀ k v, sz (k, f v) = sz (k, v)) (hh : ∀ n k v, sz (k, half n v) = sz (k, v))
    {w w' : Fates} (hw : ∀ n w1, w ≠ some n :: w1) {o : Option (Option V)}
    (h : (btreeUse sz k f half).run w t = (o, w', t')) :
    BTree.Inv sz t' ∧ t'.capacity = t.capacity ∧
      (∀ v, o = some v → t.getMut sz k f = .ok (v, t') ∧ Replaced k f t.map v t'.map ∧ (v = none → ¬ HasKey t.map k)) ∧
      (o = none → ∃ v rest, t.map.Perm ((k, v) :: rest) ∧
        (((∃ n, t'.map.Perm ((k, half n v) :: rest)) ∧ ∃ n w1, w = none :: some n :: w1) ∨
          ((∀ n w1, w ≠ none :: some n :: w1) ∧ t'.map.Perm rest))) := by
  have hL := BTree.getLawful (V := V) sz hpos
  have law : ∀ g : V → V, (∀ k v, sz (k, g v) = sz (k, v)) → ∀ v t2, t.getMut sz k g = .ok (v, t2) →
      BTree.Inv sz t2 ∧ t2.capacity = t.capacity ∧ Replaced k g t.map v t2.map ∧ (v = none → ¬ HasKey t.map k) := by
    intro g hg v t2 h2
    obtain ⟨o1, t3, g1, g2, g3, g4⟩ := hL.getMut t k g hI hg
    have g1' : t.getMut sz k g = .ok (o1, t3) := g1
    rw [g1'] at h2
    obtain ⟨rfl, rfl⟩ := Prod.mk.inj (Res.ok.inj h2)
    refine ⟨g2, g3, ?_⟩
    cases o1 with
    | none => exact ⟨g4.2, fun _ => g4.1⟩
    | some v => exact ⟨g4, by simp⟩
  cases o with
  | some v =>
    have h1 := M.res_of_run h
    rw [btreeUse_agrees] at h1
    obtain ⟨a, b, c, d⟩ := law f hf v t' h1
    exact ⟨a, b, fun v' hv => by cases hv; exact ⟨h1, c, d⟩, by simp⟩
  | none =>
    obtain ⟨v, hv, h1 | ⟨n, w1, rfl, h1⟩ | ⟨hn, h1⟩⟩ := btreeUse_panics sz hpos hI hf hh h
    · obtain ⟨n, w1, rfl, -⟩ := h1
      exact absurd rfl (hw n w1)
    · obtain ⟨a, b, ⟨rest, p1, p2⟩, -⟩ := law (half n) (hh n) _ _ h1
      exact ⟨a, b, by simp, fun _ => ⟨v, rest, p1, .inl ⟨⟨n, p2⟩, n, w1, rfl⟩⟩⟩
    · obtain ⟨o1, t1, g1, g2, g3, g4, -, g6⟩ := BTree.take_spec sz t k hI.1
      rw [g1] at h1
      obtain ⟨rfl, rfl⟩ := Prod.mk.inj (Res.ok.inj h1)
      exact ⟨⟨g2, by have := hI.2; omega⟩, g3, by simp, fun _ => ⟨v, t1.map, g6.2.symm, .inr ⟨hn, List.Perm.refl _⟩⟩⟩

/-- One step of a history. -/
theorem act_kept (sz : K × V → Nat) (hpos : ∀ e, 0 < sz e) {t : BTree K V} (hI : BTree.Inv sz t) (a : Act K V) (w : Fates)
    (ha : Fine sz a w) :
    BTree.Inv sz (act sz t w a).2 ∧ (act sz t w a).2.capacity = t.capacity ∧
      ∃ lost, (((act sz t w a).2.map ++ handed [(act sz t w a).1] ++ lost).map Prod.fst).Perm
          ((t.map ++ if (act sz t w a).1 = none then [] else a.given).map Prod.fst) ∧
        (((act sz t w a).1 = none → InCell a w) → lost = []) := by
  have key : ∀ (k : K) (f : V → V) (half : Nat → V → V), (∀ n w1, w ≠ some n :: w1) → (∀ k v, sz (k, f v) = sz (k, v)) →
      (∀ n k v, sz (k, half n v) = sz (k, v)) → ∀ o w' t', (btreeUse sz k f half).run w t = (o, w', t') →
      BTree.Inv sz t' ∧ t'.capacity = t.capacity ∧ ∃ lost, ((t'.map ++ lost).map Prod.fst).Perm (t.map.map Prod.fst) ∧
        ((o = none → ∃ n w1, w = none :: some n :: w1) → lost = []) := by
    intro k f half hw hf hh o w' t' h
    obtain ⟨h1, h2, h3, h4⟩ := use_kept sz hpos hI hf hh hw h
    refine ⟨h1, h2, ?_⟩
    cases o with
    | some v =>
      refine ⟨[], ?_, fun _ => rfl⟩
      obtain ⟨-, h5, -⟩ := h3 v rfl
      rw [List.append_nil]
      cases v with
      | none => exact h5.map _
      | some v =>
        obtain ⟨rest, p1, p2⟩ := h5
        exact (show ((t'.map).map Prod.fst).Perm (k :: rest.map Prod.fst) from p2.map Prod.fst).trans (p1.map Prod.fst).symm
    | none =>
      obtain ⟨v, rest, p1, ⟨⟨n, p2⟩, -⟩ | ⟨p3, p2⟩⟩ := h4 rfl
      · refine ⟨[], ?_, fun _ => rfl⟩
        rw [List.append_nil]
        exact (show ((t'.map).map Prod.fst).Perm (k :: rest.map Prod.fst) from p2.map Prod.fst).trans (p1.map Prod.fst).symm
      · refine ⟨[(k, v)], ?_, fun hn => ?_⟩
        · have := (p2.append_right [(k, v)]).map Prod.fst
          refine this.trans (((p1.trans ?_).map _).symm)
          exact (List.perm_append_singleton _ _).symm
        · obtain ⟨n, w1, e⟩ := hn rfl
          exact absurd e (p3 n w1)
  cases a with
  | call op =>
    obtain ⟨h1, h2, h3⟩ := btree_attempt sz hI op w ha.1 ha.2
    refine ⟨h1, h2, [], ?_, fun _ => rfl⟩
    have e1 : handed [(act sz t w (.call op)).1] = returned [(attempt (btree sz) t w op).1] := by
      simp only [act, handed, returned]
      cases (attempt (btree sz) t w op).1 <;> rfl
    have e2 : ((act sz t w (.call op)).1 = none) = ((attempt (btree sz) t w op).1 = none) := by
      simp only [act]
      cases (attempt (btree sz) t w op).1 <;> simp
    rw [List.append_nil, e1]
    simp only [e2]
    exact h3.map _
  | get k =>
    rcases hr : (btreeUse sz k id fun _ => id).run w t with ⟨o, w', t'⟩
    obtain ⟨h1, h2, lost, h3, h4⟩ := key k id (fun _ => id) ha (fun _ _ => rfl) (fun _ _ _ => rfl) _ _ _ hr
    have e : act sz t w (.get k) = (o.map .value, t') := by simp only [act, hr]
    have e1 : handed [o.map (Seen.value (K := K) (V := V))] = [] := by cases o <;> rfl
    rw [e]
    refine ⟨h1, h2, lost, ?_, fun hc => h4 fun ho => hc (by simp [ho])⟩
    simpa [e1, Act.given] using h3
  | getMut k f half =>
    rcases hr : (btreeUse sz k f half).run w t with ⟨o, w', t'⟩
    obtain ⟨h1, h2, lost, h3, h4⟩ := key k f half ha.1 ha.2.1 ha.2.2 _ _ _ hr
    have e : act sz t w (.getMut k f half) = (o.map .value, t') := by simp only [act, hr]
    have e1 : handed [o.map (Seen.value (K := K) (V := V))] = [] := by cases o <;> rfl
    rw [e]
    refine ⟨h1, h2, lost, ?_, fun hc => h4 fun ho => hc (by simp [ho])⟩
    simpa [e1, Act.given] using h3

/-- What the calls that returned were given. -/
def accepted (l : List (Act K V × Fates)) (os : List (Option (Seen K V))) : List (K × V) :=
  (l.zip os).flatMap fun c => if c.2 = none then [] else c.1.1.given

theorem acts_kept (sz : K × V → Nat) (hpos : ∀ e, 0 < sz e) : ∀ (l : List (Act K V × Fates)) {t : BTree K V},
    BTree.Inv sz t → (∀ c ∈ l, Fine sz c.1 c.2) →
    BTree.Inv sz (acts sz t l).2 ∧ (acts sz t l).2.capacity = t.capacity ∧
      ∃ lost, (((acts sz t l).2.map ++ handed (acts sz t l).1 ++ lost).map Prod.fst).Perm
          ((t.map ++ accepted l (acts sz t l).1).map Prod.fst) ∧
        ((∀ c ∈ l.zip (acts sz t l).1, c.2 = none → InCell c.1.1 c.1.2) → lost = [])
  | [], t, hI, _ => ⟨hI, rfl, [], by simp [acts, handed, accepted], fun _ => rfl⟩
  | (a, w) :: l, t, hI, hok => by
    obtain ⟨h1, h2, lost, h3, h4⟩ := act_kept sz hpos hI a w (hok (a, w) (by simp))
    obtain ⟨g1, g2, losts, g3, g4⟩ := acts_kept sz hpos l h1 fun c hc => hok c (by simp [hc])
    refine ⟨g1, g2.trans h2, lost ++ losts, ?_, fun hz => ?_⟩
    · show (((acts sz (act sz t w a).2 l).2.map ++ handed ((act sz t w a).1 :: (acts sz (act sz t w a).2 l).1) ++
        (lost ++ losts)).map Prod.fst).Perm ((t.map ++ ((if (act sz t w a).1 = none then [] else a.given) ++
          accepted l (acts sz (act sz t w a).2 l).1)).map Prod.fst)
      rw [handed_cons]
      simp only [List.map_append] at h3 g3 ⊢
      perms [h3, g3]
    · have e1 := h4 fun hn => hz ((a, w), (act sz t w a).1) (by simp [acts]) hn
      have e2 := g4 fun c hc => hz c (by simp only [acts, List.zip_cons_cons]; exact List.mem_cons_of_mem _ hc)
      simp [e1, e2]

/-! ## C125 -/

/-- **C125 (accesses that return).** In every state, an access that returns is the one of the model used everywhere else. -/
theorem C125_returns_partial (sz : K × V → Nat) (t t' : BTree K V) (w : Fates) (k : K) (f : V → V) (half : Nat → V → V)
    (o : Option V) (h : act sz t w (.getMut k f half) = (some (.value o), t')) :
    (btreeGet sz).getMut t k f = .ok (o, t') := by
  rcases hr : (btreeUse sz k f half).run w t with ⟨r, w', s⟩
  simp only [act, hr, Prod.mk.injEq] at h
  obtain ⟨h1, rfl⟩ := h
  cases r with
  | none => simp at h1
  | some v =>
    simp only [Option.map_some, Option.some.injEq, Seen.value.injEq] at h1
    subst h1
    exact (btreeUse_agrees sz k f half t).symm.trans (M.res_of_run hr)

/-- **C125 (histories).** A `BTree` built with capacity `n`, elements of positive size.  After any history of calls and
accesses in which functions of the user panic as `Fine` says: the capacity is `n`, the size is that of the elements stored and
within `n`, the keys of the elements stored or handed back are keys that were given to calls that returned, as many times at
most; and all of them, if the accesses that panicked did so while the cell was used. -/
theorem C125_history_partial (sz : K × V → Nat) (hpos : ∀ e, 0 < sz e) (n : Nat) (l : List (Act K V × Fates))
    (hok : ∀ c ∈ l, Fine sz c.1 c.2) :
    let r := acts sz (BTree.new n) l
    (btreeBlock sz).capacity r.2 = n ∧ (btreeBlock sz).size r.2 ≤ n ∧
    (btreeBlock sz).size r.2 = total sz ((btreeBlock sz).contents r.2) ∧
    (((btreeBlock sz).contents r.2 ++ handed r.1).map Prod.fst).Subperm ((accepted l r.1).map Prod.fst) ∧
    ((∀ c ∈ l.zip r.1, c.2 = none → InCell c.1.1 c.1.2) →
      (((btreeBlock sz).contents r.2 ++ handed r.1).map Prod.fst).Perm ((accepted l r.1).map Prod.fst)) := by
  obtain ⟨h1, h2, lost, h3, h4⟩ := acts_kept sz hpos l (BTree.new_inv sz n) hok
  have hc : (acts sz (BTree.new n : BTree K V) l).2.capacity = n := h2
  have h3' : (((acts sz (BTree.new n) l).2.map ++ handed (acts sz (BTree.new n) l).1 ++ lost).map Prod.fst).Perm
      ((accepted l (acts sz (BTree.new n) l).1).map Prod.fst) := by simpa [BTree.new] using h3
  refine ⟨hc, h1.2.trans hc.le, h1.1.size, ?_, fun hz => ?_⟩
  · rw [List.map_append] at h3'
    exact (List.sublist_append_left _ _).subperm.trans h3'.subperm
  · rw [h4 hz, List.append_nil] at h3'
    exact h3'

/-- **C125 (one access).** In the state after any such history, an access of the key `k`: when it returns, it finds a value
exactly when there is one and only that value changes; when the user of the cell panics, the value is what the user left in
the cell, and nothing else changes; when `element_size` panics while the element is put back, the element is lost, and nothing
else changes. -/
theorem C125_access_partial (sz : K × V → Nat) (hpos : ∀ e, 0 < sz e) (n : Nat) (l : List (Act K V × Fates))
    (hok : ∀ c ∈ l, Fine sz c.1 c.2) (t t' : BTree K V) (ht : t = (acts sz (BTree.new n) l).2) (w : Fates) (k : K)
    (f : V → V) (half : Nat → V → V) (hw : Fine sz (.getMut k f half) w) (r : Option (Seen K V))
    (h : act sz t w (.getMut k f half) = (r, t')) :
    (∀ o, r = some (.value o) → Replaced k f ((btreeBlock sz).contents t) o ((btreeBlock sz).contents t') ∧
      (o = none → ¬ HasKey ((btreeBlock sz).contents t) k)) ∧
    (r = none → ∃ v rest, ((btreeBlock sz).contents t).Perm ((k, v) :: rest) ∧
      ((∃ n w1, w = none :: some n :: w1) → ∃ n, ((btreeBlock sz).contents t').Perm ((k, half n v) :: rest)) ∧
      ((¬ ∃ n w1, w = none :: some n :: w1) → ((btreeBlock sz).contents t').Perm rest)) := by
  subst ht
  obtain ⟨h1, -⟩ := acts_kept sz hpos l (BTree.new_inv sz n) hok
  rcases hr : (btreeUse sz k f half).run w (acts sz (BTree.new n) l).2 with ⟨o1, w', s⟩
  simp only [act, hr, Prod.mk.injEq] at h
  obtain ⟨rfl, rfl⟩ := h
  obtain ⟨-, -, g3, g4⟩ := use_kept sz hpos h1 hw.2.1 hw.2.2 hw.1 hr
  refine ⟨fun o ho => ?_, fun hn => ?_⟩
  · cases o1 with
    | none => simp at ho
    | some v =>
      simp only [Option.map_some, Option.some.injEq, Seen.value.injEq] at ho
      subst ho
      exact (g3 v rfl).2
  · obtain ⟨v, rest, p1, p2⟩ := g4 (by cases o1 <;> simp_all)
    refine ⟨v, rest, p1, fun hc => ?_, fun hc => ?_⟩
    · rcases p2 with ⟨⟨m, p3⟩, -⟩ | ⟨p3, -⟩
      · exact ⟨m, p3⟩
      · obtain ⟨n, w1, e⟩ := hc
        exact absurd e (p3 n w1)
    · rcases p2 with ⟨-, p3⟩ | ⟨-, p3⟩
      · exact absurd p3 hc
      · exact p3

/-- **C125, in full: an access that panics loses nothing, and the next calls return.** -/
def C125_full : Prop :=
  ∀ (n : Nat) (l : List (Act Nat Nat × Fates)), (∀ c ∈ l, Fine (fun _ => 1) c.1 c.2) → ∀ (k : Nat) (w : Fates),
    let t := (acts (fun _ => 1) (BTree.new n) l).2
    let r := act (fun _ => 1) t w (.get k)
    r.1 = none → ((btreeBlock fun _ => 1).contents r.2).Perm ((btreeBlock fun _ => 1).contents t) ∧
      ∀ m, (act (fun _ => 1) r.2 [] (.call (.pop m))).1 ≠ none

/-- Two elements. -/
def filled : List (Act Nat Nat × Fates) := [(.call (.push [(1, 1), (2, 2)]), [])]

/-- `element_size` panics when a read of 2 takes it out: the element is lost, the size still counts it, and the next `pop`
panics. -/
theorem C125_get_breaks :
    let t := (acts (fun _ => 1) (BTree.new 2) filled).2
    let r := act (fun _ => 1) t [some 0] (.get 2)
    r.1 = none ∧ (btreeBlock fun _ => 1).contents r.2 = [(1, 1)] ∧ (btreeBlock fun _ : Nat × Nat => 1).size r.2 = 2 ∧
      (act (fun _ => 1) r.2 [] (.call (.pop 1))).1 = none := by
  refine ⟨by decide +kernel, by decide +kernel, by decide +kernel, ?_⟩
  rfl

/-- `element_size` panics when the cell of a read of 2 is dropped: the element is lost. -/
theorem C125_drop_loses :
    let t := (acts (fun _ => 1) (BTree.new 2) filled).2
    let r := act (fun _ => 1) t [none, none, some 0] (.get 2)
    r.1 = none ∧ (btreeBlock fun _ => 1).contents r.2 = [(1, 1)] ∧ (btreeBlock fun _ : Nat × Nat => 1).size r.2 = 1 := by
  decide +kernel

theorem filled_fine : ∀ c ∈ filled, Fine (fun _ => 1) c.1 c.2 := by
  intro c hc
  simp only [filled, List.mem_singleton] at hc
  subst hc
  exact ⟨by show (List.map Prod.fst [(1, 1), (2, 2)]).Nodup; decide, .inl rfl⟩

/-- **C125, refuted.** -/
theorem C125_false : ¬ C125_full := by
  intro h
  have h1 := h 2 filled filled_fine 2 [none, none, some 0] C125_drop_loses.1
  rw [C125_drop_loses.2.1] at h1
  have := h1.1.length_eq
  revert this
  decide +kernel

/-! ## The hypotheses are met -/

/-- A write whose user panics and leaves 9 in the cell; a read whose user panics; a read that panics at the drop of the cell; a
write that returns. -/
def uses : List (Act Nat Nat × Fates) :=
  [(.call (.push [(1, 1), (2, 2)]), []), (.getMut 2 (· + 5) (fun n _ => n), [none, some 9]), (.get 2, [none, some 0]),
    (.get 1, [none, none, some 0]), (.getMut 2 (· + 5) (fun n _ => n), []), (.call (.push [(3, 3)]), [])]

example : (acts (fun _ => 1) (BTree.new 2) uses).1.map Option.isSome = [true, false, false, false, true, true] ∧
    (btreeBlock fun _ => 1).contents (acts (fun _ => 1) (BTree.new 2) uses).2 = [(2, 14), (3, 3)] ∧
    ∀ c ∈ uses, Fine (fun _ => 1) c.1 c.2 := by
  refine ⟨by decide +kernel, by decide +kernel, ?_⟩
  intro c hc
  simp only [uses, List.mem_cons, List.not_mem_nil, or_false] at hc
  rcases hc with rfl | rfl | rfl | rfl | rfl | rfl
  · exact ⟨by show (List.map Prod.fst [(1, 1), (2, 2)]).Nodup; decide, .inl rfl⟩
  · exact ⟨by simp, fun _ _ => rfl, fun _ _ _ => rfl⟩
  · intro n w1; simp
  · intro n w1; simp
  · exact ⟨by simp, fun _ _ => rfl, fun _ _ _ => rfl⟩
  · exact ⟨by show (List.map Prod.fst [(3, 3)]).Nodup; decide, .inl rfl⟩

end BTreeUnwindProps
end Byoc
