import Verif.Model.InclusiveHeld
import Verif.Props.InclusiveProps
import Verif.Props.BTreeProps

/-!
# C108: lookups in an `Inclusive` over any container
-/

namespace Byoc.InclusiveHeldProps

open Inclusive InclusiveProps List

variable {K V : Type}

/-- **C108, cells that do nothing when dropped.**  Over Arrays, Compressed containers and what is made of them, holding
the cell changes nothing: C14, C15 and C96 apply as they are. -/
theorem C108_plain {F B : Block K (InclCell V)} (GF : GetOps F) (GB : GetOps B) :
    inclusiveGetHeld GF (Holding.plain GB) = inclusiveGet GF GB := by
  have hd : ∀ s k, inclusiveDowngradeHeld F B (Holding.plain GB) s k = inclusiveDowngrade F B GB s k := by
    intro s k
    unfold inclusiveDowngradeHeld inclusiveDowngrade Holding.plain
    simp only
    cases GB.get s.2 k InclCell.clone with
    | panic => rfl
    | ok r =>
      obtain ⟨o, b⟩ := r
      cases o with
      | none => rfl
      | some c =>
        simp only [Res.ok_bind, Option.map, Res.pure_eq]
  unfold inclusiveGetHeld inclusiveGet inclusiveAccessHeld inclusiveAccess
  simp only [hd]

section Front
variable [LinearOrder K] {F B : Block K (InclCell V)}
  {If : F.State → Prop} {Ib : B.State → Prop}
  {ef : F.State → List (K × InclCell V)} {eb : B.State → List (K × InclCell V)}

/-- An access to the front, which is a view of the two levels. -/
theorem front_weak {op : F.State → K → (InclCell V → InclCell V) → Res (Option (InclCell V) × F.State)}
    (hop : AccessLaw F op If ef fun _ => True) (k : K) (g : InclCell V → InclCell V) (f : V → V)
    (hg : ∀ c, (g c).value = f c.value) (hgc : ∀ c, (g c).cloned = c.cloned)
    (hgu : ∀ c, c.cloned = true →
      (g c).updated = true ∨ ((g c).value = c.value ∧ (g c).updated = c.updated))
    (f1 : F.State) (b1 : B.State) (i1 : If f1) (i3 : Weak (ef f1) (eb b1)) :
    ∃ o f2, op f1 k g = .ok (o, f2) ∧ If f2 ∧ Weak (ef f2) (eb b1) ∧
      match o with
      | none => (vis (ef f2) (eb b1)).Perm (vis (ef f1) (eb b1)) ∧ ¬ HasKey (ef f1) k
      | some c => ∃ rest, (vis (ef f1) (eb b1)).Perm ((k, c.value) :: rest) ∧
        (vis (ef f2) (eb b1)).Perm ((k, f c.value) :: rest) := by
  obtain ⟨o, f2, h1, h2, h3, h4⟩ := hop f1 k g i1 trivial
  cases o with
  | none =>
    have n2 : ((ef f2).map Prod.fst).Nodup := (h4.2.map Prod.fst).nodup_iff.2 i3.nf
    have hlk := fun j => lk_perm h4.2 n2 j
    refine ⟨none, f2, h1, h2, ⟨n2, i3.nb, fun j c hj => i3.copy j c (by rw [← hlk, hj])⟩, ?_, h4.1⟩
    rw [vis_congr fun j _ => hlk j]
  | some c =>
    obtain ⟨r, p1, p2⟩ := h4
    have hlk : lk (ef f1) k = some c := by rw [lk_perm p1 i3.nf, lk_cons]; simp
    obtain ⟨hc, -⟩ := i3.copy k c hlk
    obtain ⟨q1, others, q2, q3⟩ := i3.access p1 p2 (by rw [hgc, hc]) (hgu c hc)
    rw [hg] at q3
    exact ⟨some c, f2, h1, h2, q1, others, q2, q3⟩

/-- What `downgrade` must do for accesses to be right. -/
def DowngradeWeak (H : Holding B) (If : F.State → Prop) (Ib : B.State → Prop)
    (ef : F.State → List (K × InclCell V)) (eb : B.State → List (K × InclCell V)) : Prop :=
  ∀ (s : F.State × B.State) (k : K) (b : Bool) (s' : F.State × B.State), WInv If Ib ef eb s →
    ¬ HasKey (ef s.1) k → inclusiveDowngradeHeld F B H s k = .ok (b, s') →
    WInv If Ib ef eb s' ∧ (vis (ef s'.1) (eb s'.2)).Perm (vis (ef s.1) (eb s.2))

theorem accessWeak_held {okF : List (K × InclCell V) → Prop} {GF : GetOps F} {H : Holding B} (hF : Lawful F If ef okF)
    (gF : GetLawful F GF If ef fun _ => True) (hd : DowngradeWeak H If Ib ef eb) :
    AccessWeak (inclusiveGetHeld GF H) If Ib ef eb := by
  have key : ∀ (op : F.State → K → (InclCell V → InclCell V) → Res (Option (InclCell V) × F.State))
      (_ : AccessLaw F op If ef fun _ => True) (k : K) (g : InclCell V → InclCell V) (f : V → V)
      (_ : ∀ c, (g c).value = f c.value) (_ : ∀ c, (g c).cloned = c.cloned)
      (_ : ∀ c, c.cloned = true →
        (g c).updated = true ∨ ((g c).value = c.value ∧ (g c).updated = c.updated))
      (s : F.State × B.State) (_ : WInv If Ib ef eb s) (o : Option V) (s' : F.State × B.State),
      inclusiveAccessHeld F B H op s k g = .ok (o, s') →
      WInv If Ib ef eb s' ∧
      match o with
      | none => (vis (ef s'.1) (eb s'.2)).Perm (vis (ef s.1) (eb s.2))
      | some v => ∃ rest, (vis (ef s.1) (eb s.2)).Perm ((k, v) :: rest) ∧
          (vis (ef s'.1) (eb s'.2)).Perm ((k, f v) :: rest) := by
    intro op hop k g f hg hgc hgu s hI o s' he
    have finish : ∀ (s1 : F.State × B.State), WInv If Ib ef eb s1 →
        (vis (ef s1.1) (eb s1.2)).Perm (vis (ef s.1) (eb s.2)) → ∀ o s',
        (do let (o, fr) ← op s1.1 k g; return (o.map InclCell.value, (fr, s1.2))) = Res.ok (o, s') →
        WInv If Ib ef eb s' ∧
        match o with
        | none => (vis (ef s'.1) (eb s'.2)).Perm (vis (ef s.1) (eb s.2))
        | some v => ∃ rest, (vis (ef s.1) (eb s.2)).Perm ((k, v) :: rest) ∧
            (vis (ef s'.1) (eb s'.2)).Perm ((k, f v) :: rest) := by
      intro s1 hI1 hp o s' he
      obtain ⟨o', f2, g1, g2, g3, g4⟩ := front_weak hop k g f hg hgc hgu s1.1 s1.2 hI1.1 hI1.2.2
      simp only [g1, Res.ok_bind, Res.pure_eq, Res.ok.injEq, Prod.mk.injEq] at he
      obtain ⟨rfl, rfl⟩ := he
      refine ⟨⟨g2, hI1.2.1, g3⟩, ?_⟩
      cases o' with
      | none => exact List.Perm.trans g4.1 hp
      | some c =>
        obtain ⟨r, r1, r2⟩ := g4
        exact ⟨r, hp.symm.trans r1, r2⟩
    obtain ⟨i1, i2, i3⟩ := hI
    obtain ⟨b, f1, h1, h2, h3, h3', h4, h5⟩ := hF.contains s.1 k i1
    by_cases hb : b = true
    · simp only [inclusiveAccessHeld, h1, Res.ok_bind, hb, if_true, Res.pure_eq] at he
      exact finish (f1, s.2) ⟨h2, i2, by rw [h4]; exact i3⟩ (by rw [h4]) o s' he
    · have hk1 : ¬ HasKey (ef f1) k := by rw [h4]; exact fun h => hb (h5.2 h)
      simp only [inclusiveAccessHeld, h1, Res.ok_bind, hb, Bool.false_eq_true, if_false] at he
      cases hx : inclusiveDowngradeHeld F B H (f1, s.2) k with
      | panic => simp [hx] at he
      | ok r =>
        obtain ⟨b', s1⟩ := r
        obtain ⟨d1, d2⟩ := hd (f1, s.2) k b' s1 ⟨h2, i2, by rw [h4]; exact i3⟩ hk1 hx
        simp only [h4] at d2
        simp only [hx, Res.ok_bind] at he
        cases b' with
        | true => rw [if_pos rfl] at he; exact finish s1 d1 d2 o s' he
        | false =>
          rw [if_neg (by simp)] at he
          cases he
          exact ⟨d1, d2⟩
  intro s k f hI o s' h
  rcases h with ⟨h, rfl⟩ | h
  · exact key GF.get gF.get k (InclCell.read id) id (fun _ => rfl) (fun _ => rfl) (fun _ _ => Or.inr ⟨rfl, rfl⟩) s hI o s' h
  · exact key GF.getMut gF.getMut k (InclCell.write f) f (fun _ => rfl) (fun _ => rfl) (fun c hc => Or.inl hc) s hI o s' h

end Front

section Returns
variable [LinearOrder K] {F B : Block K (InclCell V)} {GF : GetOps F} {GB : GetOps B}
  {If : F.State → Prop} {Ib : B.State → Prop}
  {ef : F.State → List (K × InclCell V)} {eb : B.State → List (K × InclCell V)}

omit [LinearOrder K] in
/-- What was in front and was written to fits behind, where it has its place. -/
theorem writeBack_fits (hB : Lawful B Ib eb fun _ => True) (sB : Slots B Ib eb) (b : B.State) (hb : Ib b)
    (upd : List (K × InclCell V)) (hn : (upd.map Prod.fst).Nodup) (hk : ∀ j ∈ upd.map Prod.fst, HasKey (eb b) j) :
    ∃ out ks b1 b2, B.takeMultiple b (upd.map Prod.fst) = .ok (out, ks, b1) ∧ B.push b1 upd = .ok ([], b2) ∧ Ib b2 := by
  obtain ⟨out, ks', b1, e1, e2, e3, e4, e5, e6, -⟩ := hB.takeMultiple b (upd.map Prod.fst) hb
  obtain ⟨out2, b2, d1, d2, d3, d4⟩ := hB.push b1 upd e2 trivial
  have hx := sB.pushExact b1 upd out2 b2 e2 d1
  rw [sB.size b1 e2, e3] at hx
  have hbd := hB.bounded b hb
  rw [sB.size b hb] at hbd
  have hl := e4.length_eq
  rw [length_append] at hl
  have hle : upd.length ≤ out.length := by
    have : (upd.map Prod.fst).Subperm (out.map Prod.fst) :=
      subperm_of_subset hn fun j hj => hasKey_iff_mem_map.1 (e6 j hj (hk j hj))
    simpa using this.length_le
  have : out2 = [] := eq_nil_of_length_eq_zero (by omega)
  subst this
  exact ⟨out, ks', b1, b2, e1, d1, d2⟩

/-- A lookup returns. -/
theorem access_returns (hF : Lawful F If ef fun _ => True) (hB : Lawful B Ib eb fun _ => True)
    (gB : GetLawful B GB Ib eb fun _ => True) (sB : Slots B Ib eb)
    {op : F.State → K → (InclCell V → InclCell V) → Res (Option (InclCell V) × F.State)}
    (hop : AccessLaw F op If ef fun _ => True)
    (s : F.State × B.State) (k : K) (g : InclCell V → InclCell V) (hI : WInv If Ib ef eb s) :
    ∃ o s', inclusiveAccess F B GB op s k g = .ok (o, s') := by
  obtain ⟨i1, i2, i3⟩ := hI
  obtain ⟨b, f1, h1, h2, h3, h3', h4, h5⟩ := hF.contains s.1 k i1
  have fin : ∀ (f2 : F.State) (b2 : B.State), If f2 → ∃ o s',
      (do let (o, fr) ← op f2 k g; return (o.map InclCell.value, (fr, b2))) = Res.ok (o, s') := by
    intro f2 b2 hf2
    obtain ⟨o, f3, g1, -⟩ := hop f2 k g hf2 trivial
    exact ⟨_, _, by rw [g1]; rfl⟩
  by_cases hb : b = true
  · simp only [inclusiveAccess, h1, Res.ok_bind, hb, if_true, Res.pure_eq]
    exact fin f1 s.2 h2
  · have hk1 : ¬ HasKey (ef f1) k := by rw [h4]; exact fun h => hb (h5.2 h)
    obtain ⟨o1, b1, a1, a2, a3, a4⟩ := gB.get s.2 k InclCell.clone i2 trivial
    rw [← h4] at i3
    cases o1 with
    | none =>
      simp only [inclusiveAccess, h1, Res.ok_bind, hb, inclusiveDowngrade, a1, Res.pure_eq,
        Bool.false_eq_true, if_false]
      exact ⟨_, _, rfl⟩
    | some c =>
      obtain ⟨r, p1, p2⟩ := a4
      obtain ⟨popped, f2, u1, u2, u3, u4⟩ := hF.push f1 [(k, c.clone)] h2 trivial
      obtain ⟨q1, q2⟩ := i3.clone hk1 p1 p2 (List.Perm.refl _)
      simp only [inclusiveAccess, h1, Res.ok_bind, hb, inclusiveDowngrade, a1, Res.pure_eq,
        Bool.false_eq_true, if_false, u1]
      by_cases hpop : popped.filter (fun e => e.2.updated) = []
      · rw [if_pos hpop]; exact fin f2 b1 u2
      · rw [if_neg hpop]
        obtain ⟨out, ks', b2, b3, w1, w2, -⟩ := writeBack_fits hB sB b1 a2 (popped.filter fun e => e.2.updated)
          ((filter_sublist.map _).nodup (lk_split u4 q1.nf).2.1) (by
            intro j hj
            obtain ⟨⟨k2, d⟩, hd, rfl⟩ := mem_map.1 hj
            have hm : (k2, d) ∈ ef f1 ++ [(k, c.clone)] := u4.subset (by simp [(mem_filter.1 hd).1])
            obtain ⟨-, x, hx, -⟩ := q1.copy k2 d (lk_of_mem q1.nf hm)
            exact ⟨x, mem_of_lk hx⟩)
        simp only [w1, Res.ok_bind, w2, if_true]
        exact fin f2 b3 u2

/-- A call other than `take` and `pop`. -/
def Mild : Call K V → Prop
  | .op (.take _) => False
  | .op (.pop _) => False
  | _ => True

/-- What is behind has room for what it holds: elements of keys it holds are taken out and put back, nothing is handed back. -/
def Refills (B : Block K (InclCell V)) (Ib : B.State → Prop) (eb : B.State → List (K × InclCell V)) : Prop :=
  ∀ (b : B.State), Ib b → ∀ (upd : List (K × InclCell V)), (upd.map Prod.fst).Nodup →
    (∀ j ∈ upd.map Prod.fst, HasKey (eb b) j) →
    ∃ out ks b1 b2, B.takeMultiple b (upd.map Prod.fst) = .ok (out, ks, b1) ∧ B.push b1 upd = .ok ([], b2) ∧ Ib b2

/-- If lookups return, and what is behind has room for what it holds, histories of fresh keys without `take` and `pop`
return. -/
theorem mild_returns {okF okB : List (K × InclCell V) → Prop} {G : GetOps (inclusive F B)}
    (hF : Lawful F If ef okF) (fF : Flushes F If ef)
    (hB : Lawful B Ib eb okB) (hokB : ∀ l, (l.map Prod.fst).Nodup → okB l) (fB : Flushes B Ib eb) (rB : Refills B Ib eb)
    (hG : AccessWeak G If Ib ef eb)
    (hr : ∀ s k f, WInv If Ib ef eb s → (∃ o s', G.get s k f = .ok (o, s')) ∧ ∃ o s', G.getMut s k f = .ok (o, s')) :
    ∀ (cs : List (Call K V)) (s : F.State × B.State), WInv If Ib ef eb s →
      (∀ c ∈ cs, Mild c) → (∀ c ∈ cs, c.Within (· = id) (fun _ => True)) →
      (inclusive F B).FreshCalls G (fun s => vis (ef s.1) (eb s.2)) s cs →
      ∃ out s', (inclusive F B).calls G s cs = .ok (out, s') := by
  intro cs
  induction cs with
  | nil => intro s _ _ _ _; exact ⟨[], s, rfl⟩
  | cons c cs ih =>
    intro s hI hm hcs hf
    have hn := hf.1 (by rw [keys_vis]; exact hI.2.2.nb)
    have one : ∃ o1 s1, (inclusive F B).call G s c = .ok (o1, s1) := by
      obtain ⟨i1, i2, i3⟩ := hI
      cases c with
      | get k f =>
        obtain ⟨o, s1, h1⟩ := (hr s k f ⟨i1, i2, i3⟩).1
        exact ⟨[], s1, by simp only [Block.call, h1, Res.ok_bind]; rfl⟩
      | getMut k f =>
        obtain ⟨o, s1, h1⟩ := (hr s k f ⟨i1, i2, i3⟩).2
        exact ⟨[], s1, by simp only [Block.call, h1, Res.ok_bind]; rfl⟩
      | op o =>
        show ∃ o1 s1, (inclusive F B).step s o = .ok (o1, s1)
        cases o with
        | contains k =>
          obtain ⟨b, f1, h1, -⟩ := hF.contains s.1 k i1
          obtain ⟨b', b1, g1, -⟩ := hB.contains s.2 k i2
          cases b <;> simp only [Block.step, inclusive, h1, g1, Res.ok_bind, if_true, Bool.false_eq_true, if_false] <;>
            exact ⟨_, _, rfl⟩
        | take k => exact (hm (.op (.take k)) (by simp)).elim
        | pop n => exact (hm (.op (.pop n)) (by simp)).elim
        | takeMultiple ks =>
          obtain ⟨bo, ks', b1, h1, h2, h3, h4, -⟩ := hB.takeMultiple s.2 ks i2
          obtain ⟨fout, fks, f1, g1, -⟩ := hF.takeMultiple s.1 (clonedKeys bo) i1
          simp only [Block.step, inclusive, h1, Res.ok_bind, g1]
          exact ⟨_, _, rfl⟩
        | push l =>
          obtain ⟨bo, b1, h1, -⟩ := hB.push s.2 (l.map wrap) i2 (hokB _ (by
            rw [map_append, nodup_append] at hn
            simpa [wrap, Function.comp_def, Call.given, Op.given] using hn.2.1))
          obtain ⟨fout, fks, f1, g1, -⟩ := hF.takeMultiple s.1 (clonedKeys bo) i1
          simp only [Block.step, inclusive, h1, Res.ok_bind, g1]
          exact ⟨_, _, rfl⟩
        | flush =>
          obtain ⟨fout, f1, h1, h2, h3, h4⟩ := hF.flush s.1 i1
          obtain ⟨fout', f1', h1', h5, h6⟩ := fF s.1 i1
          rw [h1] at h1'
          cases h1'
          have keysUpd : ∀ l : List (K × InclCell V), (l.filterMap fun e =>
              if e.2.updated then some (e.1, InclCell.new e.2.value) else none).map Prod.fst =
              (l.filter fun e => e.2.updated).map Prod.fst := by
            intro l
            induction l with
            | nil => rfl
            | cons e l ih =>
              rw [filterMap_cons, filter_cons]
              by_cases he : e.2.updated = true
              · simp only [he, if_true, map_cons, ih]
              · simp only [he]; exact ih
          have nfo : (fout.map Prod.fst).Nodup := (h6.map Prod.fst).nodup_iff.2 i3.nf
          obtain ⟨out, ks', b1, b2, w1, w2, w3⟩ := rB s.2 i2 (fout.filterMap fun e =>
            if e.2.updated then some (e.1, InclCell.new e.2.value) else none)
            (by rw [keysUpd]; exact (filter_sublist.map _).nodup nfo) (by
              intro j hj
              rw [keysUpd] at hj
              obtain ⟨⟨k2, d⟩, hd, rfl⟩ := mem_map.1 hj
              obtain ⟨-, x, hx, -⟩ := i3.copy k2 d (lk_of_mem i3.nf (h6.subset (mem_filter.1 hd).1))
              exact ⟨x, mem_of_lk hx⟩)
          obtain ⟨out', b3, z1, -⟩ := hB.flush b2 w3
          simp only [Block.step, inclusive, h1, Res.ok_bind, w1, w2, length_nil, if_true, z1]
          exact ⟨_, _, rfl⟩
    obtain ⟨o1, s1, h1⟩ := one
    obtain ⟨hI1, -⟩ := call_weak hF fF hB hokB fB hG s hI c (hcs c (by simp)) hn o1 s1 h1
    obtain ⟨o2, s2, h2⟩ := ih s1 hI1 (fun c hc => hm c (by simp [hc])) (fun c hc => hcs c (by simp [hc])) (hf.2 _ _ h1)
    exact ⟨o1 ++ o2, s2, by simp only [Block.calls, h1, Res.ok_bind, h2]; rfl⟩

/-- **C108, levels that count their elements, any capacities.**  In every history of fresh keys without `take` and `pop`
(see C14 for those) no call panics. -/
theorem C108_returns_partial (hF : Lawful F If ef fun _ => True) (gF : GetLawful F GF If ef fun _ => True) (fF : Flushes F If ef)
    (hB : Lawful B Ib eb fun _ => True) (gB : GetLawful B GB Ib eb fun _ => True) (sB : Slots B Ib eb) (fB : Flushes B Ib eb) :
    ∀ (cs : List (Call K V)) (s : F.State × B.State), WInv If Ib ef eb s →
      (∀ c ∈ cs, Mild c) → (∀ c ∈ cs, c.Within (· = id) (fun _ => True)) →
      (inclusive F B).FreshCalls (inclusiveGetHeld GF (Holding.plain GB)) (fun s => vis (ef s.1) (eb s.2)) s cs →
      ∃ out s', (inclusive F B).calls (inclusiveGetHeld GF (Holding.plain GB)) s cs = .ok (out, s') := by
  rw [C108_plain]
  exact mild_returns hF fF hB (fun _ _ => trivial) fB (writeBack_fits hB sB) (accessWeak hF gF hB gB)
    fun s k f hI => ⟨access_returns hF hB gB sB gF.get s k (InclCell.read f) hI,
      access_returns hF hB gB sB gF.getMut s k (InclCell.write f) hI⟩

end Returns

section OverBTree
variable [LinearOrder K] [LinearOrder V] {F : Block K (InclCell V)} {okF : List (K × InclCell V) → Prop}
  {If : F.State → Prop} {ef : F.State → List (K × InclCell V)} (sz : K × InclCell V → Nat)

/-- Dropping the cell of a BTree hands back nothing, if it returns. -/
theorem release_ok {t t' : BTree K (InclCell V)} {e : K × InclCell V} (h : BTree.Inv sz t)
    (hr : t.putBack sz e = .ok t') :
    BTree.Inv sz t' ∧ t'.capacity = t.capacity ∧ t'.map.Perm (t.map ++ [e]) ∧ ¬ HasKey t.map e.1 := by
  obtain ⟨out, t1, h1, h2, h3, h4, -⟩ := BTree.push_cases sz t [e] h (by simp)
  simp only [BTree.putBack, h1, Res.ok_bind] at hr
  by_cases ho : out = []
  · rw [if_pos ho] at hr
    cases hr
    subst ho
    rw [append_nil] at h4
    refine ⟨h2, h3, h4, fun hk => ?_⟩
    have := (h4.map Prod.fst).nodup_iff.1 h2.1.nodup
    rw [map_append, nodup_append] at this
    exact this.2.2 e.1 (hasKey_iff_mem_map.1 hk) e.1 (by simp) rfl
  · rw [if_neg ho] at hr; cases hr

/-- `downgrade` over a BTree: if it returns, nothing is lost and no value is stale. -/
theorem downgrade_btree (hF : Lawful F If ef okF) (hok : ∀ e, okF [e]) :
    DowngradeWeak (F := F) (B := btreeBlock sz) (Holding.btree sz) If (BTree.Inv sz) ef BTree.map := by
  rintro ⟨f, t⟩ k b s' ⟨i1, i2, i3⟩ hk he
  simp only at i1 i2 i3 hk
  obtain ⟨o, t1, h1, h2, h3, h3', h4, h5⟩ := BTree.take_spec sz t k i2.1
  cases o with
  | none =>
    simp only [inclusiveDowngradeHeld, Holding.btree, h1, Res.ok_bind, Option.map, Res.pure_eq, Res.ok.injEq,
      Prod.mk.injEq] at he
    obtain ⟨-, rfl⟩ := he
    rw [h5.2]
    exact ⟨⟨i1, i2, i3⟩, Perm.refl _⟩
  | some e =>
    obtain ⟨k', c⟩ := e
    obtain ⟨hk', hp⟩ := h5
    simp only at hk'
    subst hk'
    have hI1 : BTree.Inv sz t1 := ⟨h2, by have := i2.2; omega⟩
    obtain ⟨popped, f2, u1, u2, u3, u4⟩ := hF.push f [(k', c.clone)] i1 (hok _)
    simp only [inclusiveDowngradeHeld, Holding.btree, h1, Res.ok_bind, Option.map, Res.pure_eq, u1] at he
    obtain ⟨q1, q2⟩ := i3.clone (fr' := ef f ++ [(k', c.clone)]) (bk' := (k', c.clone) :: t1.map) hk hp.symm
      (Perm.refl _) (Perm.refl _)
    by_cases hpop : popped.filter (fun e => e.2.updated) = []
    · rw [if_pos hpop] at he
      cases hx : BTree.putBack sz t1 (k', c.clone) with
      | panic => rw [hx] at he; cases he
      | ok t2 =>
        obtain ⟨r1, r2, r3, -⟩ := release_ok sz hI1 hx
        rw [hx] at he
        cases he
        obtain ⟨w1, w2⟩ := q1.evict (rest := (k', c.clone) :: t1.map) (out := []) (bk' := t2.map) u4
          (by simp) (by simp) (by rw [hpop]; simp) (by rw [hpop, append_nil]; perms [r3])
        exact ⟨⟨u2, r1, w1⟩, w2.trans q2⟩
    · rw [if_neg hpop] at he
      obtain ⟨out, ks', t2, e1, e2, e3, e4, e5, e6, -⟩ := (BTree.lawful sz).takeMultiple t1
        ((popped.filter fun e => e.2.updated).map Prod.fst) hI1
      have npop : ((popped.filter fun e => e.2.updated).map Prod.fst).Nodup :=
        (filter_sublist.map _).nodup (lk_split u4 q1.nf).2.1
      obtain ⟨out2, t3, d1, d2, d3, d4⟩ := (BTree.lawful sz).push t2 (popped.filter fun e => e.2.updated) e2 npop
      simp only [e1, Res.ok_bind, d1] at he
      by_cases ho : out2 = []
      · rw [if_pos ho] at he
        subst ho
        rw [append_nil] at d4
        cases hx : BTree.putBack sz t3 (k', c.clone) with
        | panic => rw [hx] at he; cases he
        | ok t4 =>
          obtain ⟨r1, r2, r3, r4⟩ := release_ok sz d2 hx
          rw [hx] at he
          cases he
          have hnk : k' ∉ (popped.filter fun e => e.2.updated).map Prod.fst := by
            intro hm
            exact r4 (hasKey_iff_mem_map.2 ((d4.map Prod.fst).mem_iff.2 (by rw [map_append]; exact mem_append_right _ hm)))
          obtain ⟨w1, w2⟩ := q1.evict (rest := (k', c.clone) :: t2.map) (out := out) (bk' := t4.map) u4
            (by simpa using e4) e5 (by
              rintro j hj ⟨v, hv⟩
              rcases mem_cons.1 hv with h | h
              · cases h; exact absurd hj hnk
              · exact e6 j hj ⟨v, h⟩) (by perms [r3, d4])
          exact ⟨⟨u2, r1, w1⟩, w2.trans q2⟩
      · rw [if_neg ho] at he
        cases he

/-- **C108 over a BTree, no stale value.**  As C15, with any front level and a BTree behind whose cells are held while
`get` and `get_mut` write to it: in every history that returns, a written value is what comes back. -/
theorem C108_btree_never_stale_partial {GF : GetOps F} (hF : Lawful F If ef okF) (hok : ∀ e, okF [e])
    (gF : GetLawful F GF If ef fun _ => True) (fF : Flushes F If ef)
    (f₀ : F.State) (hf₀ : If f₀) (hef : ef f₀ = []) (n : Nat)
    (cs₁ cs₂ : List (Call K V)) (k : K) (f : V → V)
    (hcs₁ : ∀ c ∈ cs₁, c.Within (· = id) (fun _ => True))
    (hcs₂ : ∀ c ∈ cs₂, c.Within (· = id) (fun _ => True))
    (hno : ∀ c ∈ cs₂, ¬ c.Writes k ∧ ¬ HasKey c.given k)
    (out₁ : List (K × V)) (s₁ : F.State × BTree K (InclCell V))
    (h₁ : (inclusive F (btreeBlock sz)).calls (inclusiveGetHeld GF (Holding.btree sz)) (f₀, BTree.new n) cs₁ = .ok (out₁, s₁))
    (v : V) (s₂ : F.State × BTree K (InclCell V))
    (h₂ : (inclusiveGetHeld GF (Holding.btree sz)).getMut s₁ k f = .ok (some v, s₂))
    (out₂ : List (K × V)) (s₃ : F.State × BTree K (InclCell V))
    (h₃ : (inclusive F (btreeBlock sz)).calls (inclusiveGetHeld GF (Holding.btree sz)) s₂ cs₂ = .ok (out₂, s₃))
    (hfresh₁ : (inclusive F (btreeBlock sz)).FreshCalls (inclusiveGetHeld GF (Holding.btree sz))
      (fun s => vis (ef s.1) (BTree.map s.2)) (f₀, BTree.new n) cs₁)
    (hfresh₂ : (inclusive F (btreeBlock sz)).FreshCalls (inclusiveGetHeld GF (Holding.btree sz))
      (fun s => vis (ef s.1) (BTree.map s.2)) s₂ cs₂) :
    (∀ w, (k, w) ∈ out₂ → w = f v) ∧
    (∀ w s₄, (inclusiveGetHeld GF (Holding.btree sz)).get s₃ k id = .ok (some w, s₄) → w = f v) :=
  never_stale hF fF (BTree.lawful sz) (fun _ h => h) (BTree.flushes sz) (accessWeak_held hF gF (downgrade_btree sz hF hok))
    (f₀, BTree.new n) hf₀ (BTree.new_inv sz n) hef rfl cs₁ cs₂ k f hcs₁ hcs₂ hno out₁ s₁ h₁ v s₂ h₂ out₂ s₃ h₃ hfresh₁ hfresh₂

/-- **C108 over a BTree, when lookups panic.**  Elements of size one behind.  A lookup of a key that is not in front and
is behind copies it to the front; it panics if and only if the front hands back this very key and it was written to
before; otherwise the two levels hold the same elements with the same values. -/
theorem C108_btree_exact (hF : Lawful F If ef okF) (hok : ∀ e, okF [e]) (f : F.State) (t : BTree K (InclCell V)) (k : K)
    (hI : WInv (B := btreeBlock fun _ => 1) If (BTree.Inv fun _ => 1) ef BTree.map (f, t)) (hk : ¬ HasKey (ef f) k)
    (c : InclCell V) (hc : (k, c) ∈ t.map) :
    ∃ popped f', F.push f [(k, c.clone)] = .ok (popped, f') ∧
      (c.updated = true ∧ HasKey popped k → inclusiveDowngradeHeld F _ (Holding.btree fun _ => 1) (f, t) k = .panic) ∧
      (¬ (c.updated = true ∧ HasKey popped k) →
        ∃ t', inclusiveDowngradeHeld F _ (Holding.btree fun _ => 1) (f, t) k = .ok (true, (f', t')) ∧
          WInv (B := btreeBlock fun _ => 1) If (BTree.Inv fun _ => 1) ef BTree.map (f', t') ∧ t'.capacity = t.capacity ∧
          (vis (ef f') t'.map).Perm (vis (ef f) t.map)) := by
  obtain ⟨i1, i2, i3⟩ := hI
  simp only at i1 i2 i3
  obtain ⟨o, t1, h1, h2, h3, h3', h4, h5⟩ := BTree.take_spec (fun _ => 1) t k i2.1
  cases o with
  | none => exact absurd ⟨c, hc⟩ h5.1
  | some e =>
    obtain ⟨k', c'⟩ := e
    obtain ⟨hk', hp⟩ := h5
    simp only at hk'
    subst hk'
    have hcc : c' = c := BTree.eq_of_nodup_keys i2.1.nodup (hp.subset (by simp)) hc
    subst hcc
    have hI1 : BTree.Inv (fun _ => 1) t1 := ⟨h2, by have := i2.2; omega⟩
    obtain ⟨popped, f2, u1, u2, u3, u4⟩ := hF.push f [(k', c'.clone)] i1 (hok _)
    obtain ⟨q1, q2⟩ := i3.clone (fr' := ef f ++ [(k', c'.clone)]) (bk' := (k', c'.clone) :: t1.map) hk hp.symm
      (Perm.refl _) (Perm.refl _)
    have nps := (lk_split u4 q1.nf).2.1
    have npop : ((popped.filter fun e => e.2.updated).map Prod.fst).Nodup := (filter_sublist.map _).nodup nps
    -- the cell handed back for `k'` is the one pushed
    have hself : ∀ d, (k', d) ∈ popped → d = c'.clone := by
      intro d hd
      have : (k', d) ∈ ef f ++ [(k', c'.clone)] := u4.subset (by simp [hd])
      rcases mem_append.1 this with h | h
      · exact absurd ⟨d, h⟩ hk
      · simpa using h
    have hmem : k' ∈ (popped.filter fun e => e.2.updated).map Prod.fst ↔ c'.updated = true ∧ HasKey popped k' := by
      constructor
      · intro h
        obtain ⟨⟨k2, d⟩, hd, rfl⟩ := mem_map.1 h
        obtain ⟨hd1, hd2⟩ := mem_filter.1 hd
        have := hself d hd1
        subst this
        exact ⟨hd2, _, hd1⟩
      · rintro ⟨hu, d, hd⟩
        have := hself d hd
        subst this
        exact mem_map.2 ⟨_, mem_filter.2 ⟨hd, hu⟩, rfl⟩
    -- every key handed back is behind
    have hback : ∀ j ∈ (popped.filter fun e => e.2.updated).map Prod.fst, j ≠ k' → HasKey t1.map j := by
      intro j hj hne
      obtain ⟨⟨k2, d⟩, hd, rfl⟩ := mem_map.1 hj
      obtain ⟨hd1, -⟩ := mem_filter.1 hd
      have hmf : (k2, d) ∈ ef f ++ [(k', c'.clone)] := u4.subset (by simp [hd1])
      rcases mem_append.1 hmf with h | h
      · obtain ⟨-, x, hx, -⟩ := i3.copy k2 d (lk_of_mem i3.nf h)
        rcases mem_cons.1 (hp.symm.subset (mem_of_lk hx)) with h | h
        · cases h; exact absurd rfl hne
        · exact ⟨x, h⟩
      · exact absurd (by simpa using congrArg Prod.fst (mem_singleton.1 h)) hne
    have htot : ∀ l : List (K × InclCell V), total (fun _ => 1) l = l.length := fun l => by simp [total]
    have hlen := hp.length_eq
    simp only [length_cons] at hlen
    have hsz := i2.1.size
    rw [htot] at hsz
    have hsz1 := h2.size
    rw [htot] at hsz1
    have hcap := i2.2
    have hfresh1 : ¬ HasKey t1.map k' := by
      have := (hp.map Prod.fst).nodup_iff.2 i2.1.nodup
      simp only [map_cons, nodup_cons] at this
      exact fun h => this.1 (hasKey_iff_mem_map.1 h)
    obtain ⟨out, ks', t2, e1, e2, e3, e4, e5, e6, -⟩ := (BTree.lawful (fun _ => 1)).takeMultiple t1
      ((popped.filter fun e => e.2.updated).map Prod.fst) hI1
    obtain ⟨out2, t3, d1, d2, d3, d4⟩ :=
      (BTree.lawful (fun _ => 1)).push t2 (popped.filter fun e => e.2.updated) e2 npop
    -- putting the cell back
    have put : ∀ x : BTree K (InclCell V), BTree.Inv (fun _ => 1) x → x.capacity = t.capacity → x.map.length < t.capacity →
        ¬ HasKey x.map k' → ∃ y, BTree.putBack (fun _ => 1) x (k', c'.clone) = .ok y := by
      intro x hx hxc hxl hxk
      have hxs := hx.1.size
      rw [htot] at hxs
      by_cases h1c : 1 < x.capacity
      · obtain ⟨y, hy⟩ := BTree.push_fits (fun _ => 1) x [(k', c'.clone)] hx (by rw [htot]; simpa using h1c)
          (by rw [htot, hxs]; simp; omega) (by simpa using hxk)
        exact ⟨y, by simp only [BTree.putBack, hy, Res.ok_bind]; rfl⟩
      · have hnil : x.map = [] := eq_nil_of_length_eq_zero (by omega)
        obtain ⟨o3, y, y1, y2, y3, y4, y5, -⟩ := BTree.push_cases (fun _ => 1) x [(k', c'.clone)] hx (by simp)
        obtain ⟨kept, z1, z2, -⟩ := y5 (by rw [htot]; simp; omega)
        rw [hnil] at z2
        have ho3 : o3 = [] := (append_eq_nil_iff.1 z2.eq_nil).2
        subst ho3
        exact ⟨y, by simp only [BTree.putBack, y1, Res.ok_bind]; rfl⟩
    refine ⟨popped, f2, u1, fun hbad => ?_, fun hgood => ?_⟩
    · -- the key is handed back, written
      have hin := hmem.2 hbad
      have hpop : popped.filter (fun e => e.2.updated) ≠ [] := by intro h; rw [h] at hin; simp at hin
      cases hx : inclusiveDowngradeHeld F (btreeBlock fun _ => 1) (Holding.btree fun _ => 1) (f, t) k' with
      | panic => rfl
      | ok r =>
        exfalso
        simp only [inclusiveDowngradeHeld, Holding.btree, h1, Res.ok_bind, Option.map, Res.pure_eq, u1, if_neg hpop, e1, d1] at hx
        by_cases ho : out2 = []
        · rw [if_pos ho] at hx
          subst ho
          rw [append_nil] at d4
          cases hy : BTree.putBack (fun _ => 1) t3 (k', c'.clone) with
          | panic => rw [hy] at hx; cases hx
          | ok t4 =>
            exact (release_ok (fun _ => 1) d2 hy).2.2.2 (hasKey_iff_mem_map.2
              ((d4.map Prod.fst).mem_iff.2 (by rw [map_append]; exact mem_append_right _ hin)))
        · rw [if_neg ho] at hx
          cases hx
    · have hnot : k' ∉ (popped.filter fun e => e.2.updated).map Prod.fst := fun h => hgood (hmem.1 h)
      have main : ∃ t', inclusiveDowngradeHeld F (btreeBlock fun _ => 1) (Holding.btree fun _ => 1) (f, t) k' =
          .ok (true, (f2, t')) ∧ t'.capacity = t.capacity := by
        simp only [inclusiveDowngradeHeld, Holding.btree, h1, Res.ok_bind, Option.map, Res.pure_eq, u1]
        by_cases hpop : popped.filter (fun e => e.2.updated) = []
        · rw [if_pos hpop]
          obtain ⟨y, hy⟩ := put t1 hI1 h3 (by omega) hfresh1
          exact ⟨y, by rw [hy]; rfl, (release_ok _ hI1 hy).2.1.trans h3⟩
        · rw [if_neg hpop]
          simp only [e1, Res.ok_bind, d1]
          -- what is handed back leaves its place behind
          have hle : (popped.filter fun e => e.2.updated).length ≤ out.length := by
            have : ((popped.filter fun e => e.2.updated).map Prod.fst).Subperm (out.map Prod.fst) :=
              subperm_of_subset npop fun j hj =>
                hasKey_iff_mem_map.1 (e6 j hj (hback j hj (fun h => hnot (h ▸ hj))))
            simpa using this.length_le
          have h4l := e4.length_eq
          rw [length_append] at h4l
          have hcap2 : t2.capacity = t.capacity := e3.trans h3
          have hs2 : t2.totalSize = t2.map.length := by rw [e2.1.size, htot]
          have ho2 : out2 = [] := by
            obtain ⟨y, hy⟩ := BTree.push_fits (fun _ => 1) t2 (popped.filter fun e => e.2.updated) e2
              (by rw [htot]; omega) (by rw [htot]; omega) (by
                intro j hj hjk
                have hj1 : HasKey t1.map j := hback j hj (fun h => hnot (h ▸ hj))
                obtain ⟨v1, hv1⟩ := e6 j hj hj1
                obtain ⟨v2, hv2⟩ := hjk
                have hn := (e4.map Prod.fst).nodup_iff.2 h2.nodup
                rw [map_append, nodup_append] at hn
                exact hn.2.2 j (mem_map.2 ⟨_, hv2, rfl⟩) j (mem_map.2 ⟨_, hv1, rfl⟩) rfl)
            have : (btreeBlock fun _ => 1).push t2 (popped.filter fun e => e.2.updated) = .ok ([], y) := hy
            rw [d1] at this
            cases this
            rfl
          subst ho2
          rw [append_nil] at d4
          have hl3 := d4.length_eq
          rw [length_append] at hl3
          obtain ⟨y, hy⟩ := put t3 d2 (d3.trans hcap2) (by omega) (by
            intro h
            have := (d4.map Prod.fst).mem_iff.1 (hasKey_iff_mem_map.1 h)
            rw [map_append] at this
            rcases mem_append.1 this with h | h
            · exact hfresh1 (by
                obtain ⟨v, hv⟩ := hasKey_iff_mem_map.2 h
                exact ⟨v, e4.subset (by simp [hv])⟩)
            · exact hnot h)
          exact ⟨y, by rw [if_pos rfl, hy]; rfl, (release_ok _ d2 hy).2.1.trans (d3.trans hcap2)⟩
      obtain ⟨t', g1, g2⟩ := main
      obtain ⟨w1, w2⟩ := downgrade_btree (fun _ => 1) hF hok (f, t) k' true (f2, t') ⟨i1, i2, i3⟩ hk g1
      exact ⟨t', g1, w1, g2, w2⟩

/-- What is handed back is not what was just given. -/
def KeepsNew (F : Block K (InclCell V)) (If : F.State → Prop) (ef : F.State → List (K × InclCell V)) : Prop :=
  ∀ f e popped f', If f → ¬ HasKey (ef f) e.1 → F.push f [e] = .ok (popped, f') → ¬ HasKey popped e.1

/-- A BTree of elements of size one has room for what it holds. -/
theorem refills_btree : Refills (btreeBlock (K := K) (V := InclCell V) fun _ => 1) (BTree.Inv fun _ => 1) BTree.map := by
  intro t ht upd hn hk
  have htot : ∀ l : List (K × InclCell V), total (fun _ => 1) l = l.length := fun l => by simp [total]
  obtain ⟨out, ks', t2, e1, e2, e3, e4, e5, e6, -⟩ := (BTree.lawful (fun _ => 1)).takeMultiple t (upd.map Prod.fst) ht
  obtain ⟨out2, t3, d1, d2, d3, d4⟩ := (BTree.lawful (fun _ => 1)).push t2 upd e2 hn
  have hle : upd.length ≤ out.length := by
    have : (upd.map Prod.fst).Subperm (out.map Prod.fst) :=
      subperm_of_subset hn fun j hj => hasKey_iff_mem_map.1 (e6 j hj (hk j hj))
    simpa using this.length_le
  have h4l := e4.length_eq
  rw [length_append] at h4l
  have hs := ht.1.size
  rw [htot] at hs
  have hc := ht.2
  have hs2 := e2.1.size
  rw [htot] at hs2
  replace e3 : t2.capacity = t.capacity := e3
  refine ⟨out, ks', t2, t3, e1, ?_, d2⟩
  suffices ho : out2 = [] by subst ho; exact d1
  by_cases hlt : upd.length < t2.capacity
  · obtain ⟨y, hy⟩ := BTree.push_fits (fun _ => 1) t2 upd e2 (by rw [htot]; exact hlt) (by rw [htot]; omega) (by
      intro j hj hjk
      obtain ⟨v1, hv1⟩ := e6 j hj (hk j hj)
      obtain ⟨v2, hv2⟩ := hjk
      have hn := (e4.map Prod.fst).nodup_iff.2 ht.1.nodup
      rw [map_append, nodup_append] at hn
      exact hn.2.2 j (mem_map.2 ⟨_, hv2, rfl⟩) j (mem_map.2 ⟨_, hv1, rfl⟩) rfl)
    have : (btreeBlock fun _ => 1).push t2 upd = .ok ([], y) := hy
    rw [d1] at this
    cases this
    rfl
  · have hnil : t2.map = [] := eq_nil_of_length_eq_zero (by omega)
    obtain ⟨o3, y, y1, y2, y3, y4, y5, -⟩ := BTree.push_cases (fun _ => 1) t2 upd e2 hn
    obtain ⟨kept, z1, z2, -⟩ := y5 (by rw [htot]; omega)
    rw [hnil] at z2
    have : (btreeBlock fun _ => 1).push t2 upd = .ok (o3, y) := y1
    rw [d1] at this
    cases this
    exact (append_eq_nil_iff.1 z2.eq_nil).2

/-- **C108 over a BTree, lookups return.**  Elements of size one behind, and a front which never hands back what it was
just given: no call of a history of fresh keys without `take` and `pop` panics. -/
theorem C108_btree_returns_partial {GF : GetOps F} (hF : Lawful F If ef okF) (hok : ∀ e, okF [e])
    (gF : GetLawful F GF If ef fun _ => True) (fF : Flushes F If ef) (nF : KeepsNew F If ef) :
    ∀ (cs : List (Call K V)) (s : F.State × BTree K (InclCell V)),
      WInv (B := btreeBlock fun _ => 1) If (BTree.Inv fun _ => 1) ef BTree.map s →
      (∀ c ∈ cs, Mild c) → (∀ c ∈ cs, c.Within (· = id) (fun _ => True)) →
      (inclusive F (btreeBlock fun _ => 1)).FreshCalls (inclusiveGetHeld GF (Holding.btree fun _ => 1))
        (fun s => vis (ef s.1) (BTree.map s.2)) s cs →
      ∃ out s', (inclusive F (btreeBlock fun _ => 1)).calls (inclusiveGetHeld GF (Holding.btree fun _ => 1)) s cs =
        .ok (out, s') := by
  have acc : ∀ {op : F.State → K → (InclCell V → InclCell V) → Res (Option (InclCell V) × F.State)}
      (_ : AccessLaw F op If ef fun _ => True) (g : InclCell V → InclCell V) (s : F.State × BTree K (InclCell V)) (k : K)
      (_ : WInv (B := btreeBlock fun _ => 1) If (BTree.Inv fun _ => 1) ef BTree.map s),
      ∃ o s', inclusiveAccessHeld F (btreeBlock fun _ => 1) (Holding.btree fun _ => 1) op s k g = .ok (o, s') := by
    rintro op hop g ⟨f, t⟩ k ⟨i1, i2, i3⟩
    simp only at i1 i2 i3
    have fin : ∀ (f2 : F.State) (b2 : BTree K (InclCell V)), If f2 → ∃ o s',
        (do let (o, fr) ← op f2 k g; return (o.map InclCell.value, (fr, b2))) = Res.ok (o, s') := by
      intro f2 b2 hf2
      obtain ⟨o, f3, g1, -⟩ := hop f2 k g hf2 trivial
      exact ⟨_, _, by rw [g1]; rfl⟩
    obtain ⟨b, f1, h1, h2, h3, h3', h4, h5⟩ := hF.contains f k i1
    by_cases hb : b = true
    · simp only [inclusiveAccessHeld, h1, Res.ok_bind, hb, if_true]
      exact fin f1 t h2
    · have hk1 : ¬ HasKey (ef f1) k := by rw [h4]; exact fun h => hb (h5.2 h)
      rw [← h4] at i3
      simp only [inclusiveAccessHeld, h1, Res.ok_bind, hb, Bool.false_eq_true, if_false]
      by_cases hkt : HasKey t.map k
      · obtain ⟨c, hc⟩ := hkt
        obtain ⟨popped, f2, u1, -, u2⟩ := C108_btree_exact hF hok f1 t k ⟨h2, i2, i3⟩ hk1 c hc
        obtain ⟨t', v1, v2, -⟩ := u2 fun h => nF f1 (k, c.clone) popped f2 h2 hk1 u1 h.2
        rw [v1]
        exact fin f2 t' v2.1
      · obtain ⟨o, t1, g1, g2, g3, g3', g4, g5⟩ := BTree.take_spec (fun _ => 1) t k i2.1
        cases o with
        | some e => exact absurd ⟨e.2, g5.1 ▸ g5.2.subset (by simp)⟩ hkt
        | none =>
          simp only [inclusiveDowngradeHeld, Holding.btree, g1, Res.ok_bind, Option.map, Res.pure_eq]
          exact ⟨_, _, rfl⟩
  exact mild_returns hF fF (BTree.lawful fun _ => 1) (fun _ h => h) (BTree.flushes fun _ => 1) refills_btree
    (accessWeak_held hF gF (downgrade_btree (fun _ => 1) hF hok))
    fun s k f hI => ⟨acc gF.get (InclCell.read f) s k hI, acc gF.getMut (InclCell.write f) s k hI⟩

end OverBTree

section Locked
variable {F C : Block K (InclCell V)} (GC : GetOps C)

/-- **C108 over a Sequential.**  The lock is held for reading while `downgrade` writes: if the front hands back an
element that was written to, the call never returns; otherwise it does what it does without the Sequential. -/
theorem C108_sequential (f : F.State) (c : C.State) (k : K) :
    (∀ v b popped f', GC.get c k InclCell.clone = .ok (some v, b) → F.push f [(k, v.clone)] = .ok (popped, f') →
      (∃ e ∈ popped, e.2.updated = true) →
      inclusiveDowngradeHeld F (sequentialHeld C) (Holding.plain GC).sequential (f, (c, 0)) k = .panic) ∧
    ((∀ v b popped f', GC.get c k InclCell.clone = .ok (some v, b) → F.push f [(k, v.clone)] = .ok (popped, f') →
      ∀ e ∈ popped, e.2.updated = false) →
      ∀ found f' c', inclusiveDowngrade F C GC (f, c) k = .ok (found, (f', c')) ↔
        inclusiveDowngradeHeld F (sequentialHeld C) (Holding.plain GC).sequential (f, (c, 0)) k = .ok (found, (f', (c', 0)))) := by
  constructor
  · rintro v b popped f' h1 h2 ⟨e, he, hu⟩
    have hpop : popped.filter (fun e => e.2.updated) ≠ [] := by
      intro h; have := mem_filter (p := fun e => e.2.updated) |>.2 ⟨he, hu⟩; rw [h] at this; cases this
    simp only [inclusiveDowngradeHeld, Holding.sequential, Holding.plain, h1, Res.ok_bind, Option.map, Res.pure_eq, h2,
      if_neg hpop, Option.isSome, if_true, sequentialHeld, Nat.zero_add]
    cases C.takeMultiple b ((popped.filter fun e => e.2.updated).map Prod.fst) with
    | panic => rfl
    | ok r => rfl
  · intro h found f' c'
    cases h1 : GC.get c k InclCell.clone with
    | panic =>
      simp only [inclusiveDowngrade, inclusiveDowngradeHeld, Holding.sequential, Holding.plain, h1, Res.panic_bind]
      constructor <;> intro h <;> cases h
    | ok r =>
      obtain ⟨o, b⟩ := r
      cases o with
      | none =>
        simp only [inclusiveDowngrade, inclusiveDowngradeHeld, Holding.sequential, Holding.plain, h1, Res.ok_bind,
          Option.map, Res.pure_eq]
        constructor <;> intro h <;> cases h <;> rfl
      | some v =>
        cases h2 : F.push f [(k, v.clone)] with
        | panic =>
          simp only [inclusiveDowngrade, inclusiveDowngradeHeld, Holding.sequential, Holding.plain, h1, Res.ok_bind,
            Option.map, Res.pure_eq, h2, Res.panic_bind]
          constructor <;> intro h <;> cases h
        | ok r =>
          obtain ⟨popped, f1⟩ := r
          have hpop : popped.filter (fun e => e.2.updated) = [] := by
            rw [filter_eq_nil_iff]
            intro e he
            simp [h v b popped f1 h1 h2 e he]
          simp only [inclusiveDowngrade, inclusiveDowngradeHeld, Holding.sequential, Holding.plain, h1, Res.ok_bind,
            Option.map, Res.pure_eq, h2, if_pos hpop]
          constructor <;> intro h <;> cases h <;> rfl

end Locked

/-! ## Concrete containers -/

/-- `BTree` of cells, counting its elements. -/
abbrev cellTree : Block Nat (InclCell Nat) := btreeBlock fun _ => 1

/-- `get` and `get_mut` of `Inclusive<Array, BTree>`. -/
abbrev treeGets : GetOps (inclusive cellArray cellTree) := inclusiveGetHeld cellGet (Holding.btree fun _ => 1)

/-- Two elements; the one with the greater value is written to, evicted from the front by the other, and looked up. -/
def history : List (Call Nat Nat) :=
  [.op (.push [(1, 10), (2, 5)]), .getMut 1 (fun v => v + 1), .get 2 id, .get 1 id]

/-- This history returns over an Array. -/
theorem C108_array_returns : ∃ s, twoArrays.calls (inclusiveGetHeld cellGet (Holding.plain cellGet))
    (Array.new 1, Array.new 2) history = .ok ([], s) := ⟨_, rfl⟩

/-- **A lookup waits for itself**: `Inclusive<Array(1), Sequential<Array(2)>>`, at the second lookup. -/
theorem C108_sequential_hangs :
    (inclusive cellArray (sequentialHeld cellArray)).calls (inclusiveGetHeld cellGet (Holding.plain cellGet).sequential)
      (Array.new 1, (Array.new 2, 0)) (history.take 3) = .panic ∧
    ∃ s, twoArrays.calls (inclusiveGetHeld cellGet (Holding.plain cellGet)) (Array.new 1, Array.new 2) (history.take 3) =
      .ok ([], s) :=
  ⟨rfl, _, rfl⟩

/-- **A lookup uses memory that was freed**: `Inclusive<Array(1), Batch<BTree>>`, two trees of one element.  The cell of
key 2 knows the tree at address 2; when it is dropped there is none. -/
theorem C108_batch_dangles : ∃ (f : Array Nat (InclCell Nat)) (b b1 b2 b3 : BatchAt.State cellTree)
    (c : InclCell Nat) (x : Nat × InclCell Nat) (popped : List (Nat × InclCell Nat)) (f' : Array Nat (InclCell Nat))
    (out : List (Nat × InclCell Nat)) (ks : List Nat),
    (inclusive cellArray (batchAt cellTree)).calls (inclusiveGetHeld cellGet (Holding.btree fun _ => 1).batchAt)
      (Array.new 1, (⟨2, [(0, BTree.new 1), (1, BTree.new 1)]⟩ : BatchAt.State cellTree)) (history.take 2) = .ok ([], (f, b)) ∧
    ((Holding.btree fun _ => 1).batchAt (C := cellTree)).hold b 2 InclCell.clone = .ok (some (c, (2, x)), b1) ∧
    cellArray.push f [(2, c.clone)] = .ok (popped, f') ∧ (∀ e ∈ popped, e.2.updated = true) ∧
    (batchAt cellTree).takeMultiple b1 (popped.map Prod.fst) = .ok (out, ks, b2) ∧
    (batchAt cellTree).push b2 popped = .ok ([], b3) ∧ b3.bb.map Prod.fst = [3, 4] :=
  ⟨_, _, _, _, _, _, _, _, _, _, _, by rfl, by rfl, by rfl, by decide, by rfl, by rfl, by rfl⟩

end Byoc.InclusiveHeldProps

namespace Byoc
/-! ## The same laws, for containers of some capacities only (no call changes a capacity) -/

theorem Lawful.restrict {K V : Type} {B : Block K V} {Inv elems Pre} (h : Lawful B Inv elems Pre) (P : Nat → Prop) :
    Lawful B (fun s => Inv s ∧ P (B.capacity s)) elems Pre where
  bounded s hs := h.bounded s hs.1
  empty_size s hs := h.empty_size s hs.1
  contains s k hs := by
    obtain ⟨b, s', h1, h2, h3, h4⟩ := h.contains s k hs.1
    exact ⟨b, s', h1, ⟨h2, h3 ▸ hs.2⟩, h3, h4⟩
  take s k hs := by
    obtain ⟨o, s', h1, h2, h3, h4⟩ := h.take s k hs.1
    exact ⟨o, s', h1, ⟨h2, h3 ▸ hs.2⟩, h3, h4⟩
  takeMultiple s ks hs := by
    obtain ⟨o, ks', s', h1, h2, h3, h4⟩ := h.takeMultiple s ks hs.1
    exact ⟨o, ks', s', h1, ⟨h2, h3 ▸ hs.2⟩, h3, h4⟩
  push s l hs hp := by
    obtain ⟨o, s', h1, h2, h3, h4⟩ := h.push s l hs.1 hp
    exact ⟨o, s', h1, ⟨h2, h3 ▸ hs.2⟩, h3, h4⟩
  flush s hs := by
    obtain ⟨o, s', h1, h2, h3, h4⟩ := h.flush s hs.1
    exact ⟨o, s', h1, ⟨h2, h3 ▸ hs.2⟩, h3, h4⟩
  pop s n hs := by
    obtain ⟨o, s', h1, h2, h3, h4⟩ := h.pop s n hs.1
    exact ⟨o, s', h1, ⟨h2, h3 ▸ hs.2⟩, h3, h4⟩

theorem Flushes.restrict {K V : Type} {B : Block K V} {Inv elems} (h : Flushes B Inv elems) (P : Nat → Prop) :
    Flushes B (fun s => Inv s ∧ P (B.capacity s)) elems := fun s hs => h s hs.1

theorem GetLawful.restrict {K V : Type} {B : Block K V} {G : GetOps B} {Inv elems} {PreF : (V → V) → Prop}
    (h : GetLawful B G Inv elems PreF) (P : Nat → Prop) :
    GetLawful B G (fun s => Inv s ∧ P (B.capacity s)) elems PreF where
  get s k f hs hf := by
    obtain ⟨o, s', h1, h2, h3, h4⟩ := h.get s k f hs.1 hf
    exact ⟨o, s', h1, ⟨h2, h3 ▸ hs.2⟩, h3, h4⟩
  getMut s k f hs hf := by
    obtain ⟨o, s', h1, h2, h3, h4⟩ := h.getMut s k f hs.1 hf
    exact ⟨o, s', h1, ⟨h2, h3 ▸ hs.2⟩, h3, h4⟩

end Byoc

namespace Byoc.InclusiveHeldProps
open Inclusive InclusiveProps List
variable {K V : Type}

/-- An Array with room keeps what it is given. -/
theorem slots_keepsNew [LinearOrder K] {F : Block K (InclCell V)} {If : F.State → Prop} {ef : F.State → List (K × InclCell V)}
    (h : Slots F If ef) : KeepsNew F (fun f => If f ∧ 0 < F.capacity f) ef := by
  rintro f e popped f' ⟨h1, h2⟩ hk hp ⟨v, hv⟩
  obtain ⟨kept, z1, z2⟩ := h.pushOne f e popped f' h1 h2 hp
  exact hk ⟨v, z2.subset (by simp [hv])⟩

/-- **C108, `Inclusive<Array, BTree>`**: from empty, whatever the capacities (the front has at least one place), no call of a
history of fresh keys without `take` and `pop` panics. -/
theorem C108_array_btree_partial (n m : Nat) (hn : 0 < n) (cs : List (Call Nat Nat)) (hm : ∀ c ∈ cs, Mild c)
    (hw : ∀ c ∈ cs, c.Within (· = id) (fun _ => True))
    (hf : (inclusive cellArray cellTree).FreshCalls treeGets (fun s => vis s.1.values (BTree.map s.2))
      (Array.new n, BTree.new m) cs) :
    ∃ out s, (inclusive cellArray cellTree).calls treeGets (Array.new n, BTree.new m) cs = .ok (out, s) :=
  C108_btree_returns_partial (cellArray_lawful.restrict (0 < ·)) (fun _ => trivial) (cellArray_get.restrict (0 < ·))
    (cellArray_flushes.restrict (0 < ·)) (slots_keepsNew (Array.slots _ _)) cs (Array.new n, BTree.new m)
    ⟨⟨Array.new_inv _ n, hn⟩, BTree.new_inv _ m, by exact ⟨by simp [Array.new], by simp [BTree.new], by simp [Array.new]⟩⟩
    hm hw hf

/-- Full statement: whatever is behind (an Array, a BTree, an Array in a Sequential), a history of fresh keys without `take`
and `pop` returns. -/
def C108_full : Prop := ∀ (n m : Nat) (cs : List (Call Nat Nat)), 0 < n →
  (∀ c ∈ cs, Mild c) → (∀ c ∈ cs, c.Within (· = id) (fun _ => True)) →
  (twoArrays.FreshCalls (inclusiveGetHeld cellGet (Holding.plain cellGet)) (fun s => vis s.1.values s.2.values)
      (Array.new n, Array.new m) cs →
    ∃ out s, twoArrays.calls (inclusiveGetHeld cellGet (Holding.plain cellGet)) (Array.new n, Array.new m) cs = .ok (out, s)) ∧
  ((inclusive cellArray cellTree).FreshCalls treeGets (fun s => vis s.1.values (BTree.map s.2)) (Array.new n, BTree.new m) cs →
    ∃ out s, (inclusive cellArray cellTree).calls treeGets (Array.new n, BTree.new m) cs = .ok (out, s)) ∧
  ((inclusive cellArray (sequentialHeld cellArray)).FreshCalls (inclusiveGetHeld cellGet (Holding.plain cellGet).sequential)
      (fun s => vis s.1.values s.2.1.values) (Array.new n, (Array.new m, 0)) cs →
    ∃ out s, (inclusive cellArray (sequentialHeld cellArray)).calls (inclusiveGetHeld cellGet (Holding.plain cellGet).sequential)
      (Array.new n, (Array.new m, 0)) cs = .ok (out, s))

/-- The history of the counterexample pushes fresh keys only. -/
theorem history_fresh : (inclusive cellArray (sequentialHeld cellArray)).FreshCalls
    (inclusiveGetHeld cellGet (Holding.plain cellGet).sequential) (fun s => vis s.1.values s.2.1.values)
    (Array.new 1, (Array.new 2, 0)) (history.take 3) :=
  ⟨fun _ => by decide, fun _ s' _ => freshCalls_of_nopush _ s' (by simp [Call.given])⟩

/-- The full statement does not hold. -/
theorem C108_false : ¬ C108_full := by
  intro h
  obtain ⟨out, s, h1⟩ := (h 1 2 (history.take 3) (by decide) (by simp [history, Mild]) (by
    intro c hc
    simp only [history, take_succ_cons, take_zero, mem_cons, not_mem_nil, or_false] at hc
    rcases hc with rfl | rfl | rfl <;> trivial)).2.2 history_fresh
  rw [C108_sequential_hangs.1] at h1
  cases h1

/-! ## Hypotheses met -/

/-- Two Arrays of any capacities. -/
example := fun n m cs => C108_returns_partial cellArray_lawful cellArray_get cellArray_flushes cellArray_lawful cellArray_get
  (Array.slots _ _) cellArray_flushes cs (Array.new n, Array.new m)
  ⟨Array.new_inv _ n, Array.new_inv _ m, by exact ⟨by simp [Array.new], by simp [Array.new], by simp [Array.new]⟩⟩

/-- The history above over a BTree: all its hypotheses hold. -/
example : ∃ out s, (inclusive cellArray cellTree).calls treeGets (Array.new 1, BTree.new 2) history = .ok (out, s) :=
  C108_array_btree_partial 1 2 (by decide) history (by simp [history, Mild]) (by
    intro c hc
    simp only [history, mem_cons, not_mem_nil, or_false] at hc
    rcases hc with rfl | rfl | rfl | rfl <;> trivial)
    ⟨fun _ => by decide, fun _ s' _ => freshCalls_of_nopush _ s' (by simp [Call.given])⟩

end Byoc.InclusiveHeldProps
