import Verif.Model.CloneHeap

/-!
# Copies and handles: lemmas on the memory
-/

set_option linter.unusedSectionVars false

namespace Byoc.CloneHeap

variable {K : Type} [LinearOrder K]

theorem deref_assign_same {α : Type} {l : List α} {p : Nat} {x y : α} (h : deref l p = some y) :
    deref (assign l p x) p = some x := by
  simp only [deref, assign] at *
  rw [List.getElem?_eq_some_iff] at h
  obtain ⟨h, -⟩ := h
  simp [h]

theorem deref_assign_ne {α : Type} {l : List α} {p q : Nat} (x : α) (h : p ≠ q) :
    deref (assign l p x) q = deref l q := by
  simp [deref, assign, h]

theorem deref_append {α : Type} {l : List α} {p : Nat} {y : α} (x : α) (h : deref l p = some y) :
    deref (l ++ [x]) p = some y := by
  simp only [deref] at *
  rw [List.getElem?_append_left (List.getElem?_eq_some_iff.1 h).1, h]

theorem deref_last {α : Type} (l : List α) (x : α) : deref (l ++ [x]) l.length = some x := by
  simp [deref]

theorem deref_lt {α : Type} {l : List α} {p : Nat} {y : α} (h : deref l p = some y) : p < l.length :=
  (List.getElem?_eq_some_iff.1 h).1

/-- Nothing is reached through both values. -/
def Apart : {V : Type} → (t : Ty K V) → Heap t → Val t → Val t → Prop
  | _, .array _ _ _, _, _, _ => True
  | _, .other _ _, _, _, _ => True
  | _, .flushStopper c, h, v, w => Apart c h v w
  | _, .sequential c, h, p, q => p ≠ q ∧ ∀ x y, deref h.1 p = some x → deref h.1 q = some y → Apart c h.2 x y
  | _, .decorator _ _ c, h, v, w => Apart c h v.1 w.1
  | _, .profiler c, h, v, w => v.2 ≠ w.2 ∧ Apart c h.2 v.1 w.1

/-- The values are handles on the same container. -/
def Same : {V : Type} → (t : Ty K V) → Val t → Val t → Prop
  | _, .array _ _ _, _, _ => False
  | _, .other _ _, _, _ => False
  | _, .flushStopper _, _, _ => False
  | _, .sequential _, p, q => p = q
  | _, .decorator D _ c, v, w => Subsingleton D.Factory ∧ Same c v.1 w.1
  | _, .profiler c, v, w => v.2 = w.2 ∧ Same c v.1 w.1

theorem Apart.symm : ∀ {V : Type} (t : Ty K V) (h : Heap t) (v w : Val t), Apart t h v w → Apart t h w v := by
  intro V t
  induction t with
  | array | other => intros; trivial
  | flushStopper c ih => exact ih
  | sequential c ih => exact fun h v w a => ⟨Ne.symm a.1, fun x y hx hy => ih _ _ _ (a.2 y x hy hx)⟩
  | decorator D A c ih => exact fun h v w a => ih _ _ _ a
  | profiler c ih => exact fun h v w a => ⟨Ne.symm a.1, ih _ _ _ a.2⟩

theorem load_new : ∀ {V : Type} (t : Ty K V) (s : t.block.State), load t (new t s).1 (new t s).2 = some s := by
  intro V t
  induction t with
  | array | other => intros; rfl
  | flushStopper c ih => exact ih
  | sequential c ih =>
    intro s
    exact ih s
  | decorator D A c ih =>
    intro s
    simp only [load, new]
    rw [ih]
    rfl
  | profiler c ih =>
    intro s
    simp only [load, new]
    rw [ih]
    rfl

/-- What was written is read. -/
theorem load_store : ∀ {V : Type} (t : Ty K V) (h : Heap t) (v : Val t) (s s' : t.block.State), load t h v = some s →
    load t (store t h v s').1 (store t h v s').2 = some s' := by
  intro V t
  induction t with
  | array | other => intros; rfl
  | flushStopper c ih => exact ih
  | sequential c ih =>
    intro h p s s' hl
    simp only [load, store] at *
    cases hd : deref h.1 p with
    | none => simp [hd] at hl
    | some x =>
      simp only [hd, Option.bind_eq_bind, Option.bind_some] at hl
      simp only [deref_assign_same hd, Option.bind_eq_bind, Option.bind_some]
      exact ih _ _ _ _ hl
  | decorator D A c ih =>
    intro h v s s' hl
    simp only [load, store] at *
    cases hc : load c h v.1 with
    | none => simp [hc] at hl
    | some x => rw [ih _ _ _ _ hc]; rfl
  | profiler c ih =>
    intro h v s s' hl
    simp only [load, store] at *
    cases hc : load c h.2 v.1 with
    | none => simp [hc] at hl
    | some x =>
      cases hd : deref h.1 v.2 with
      | none => simp [hc, hd] at hl
      | some y => rw [ih _ _ _ _ hc, deref_assign_same hd]; rfl

/-- Writing through a value changes nothing for values apart from it. -/
theorem load_store_apart : ∀ {V : Type} (t : Ty K V) (h : Heap t) (v w : Val t) (s' : t.block.State),
    Apart t h v w → load t (store t h v s').1 w = load t h w := by
  intro V t
  induction t with
  | array | other => intros; rfl
  | flushStopper c ih => exact ih
  | sequential c ih =>
    intro h p q s' ha
    simp only [load, store]
    cases hd : deref h.1 p with
    | none => rfl
    | some x =>
      simp only [deref_assign_ne _ ha.1]
      cases hq : deref h.1 q with
      | none => rfl
      | some y => exact ih _ _ _ _ (ha.2 x y hd hq)
  | decorator D A c ih =>
    intro h v w s' ha
    simp only [load, store]
    rw [ih _ _ _ _ ha]
  | profiler c ih =>
    intro h v w s' ha
    simp only [load, store]
    rw [ih _ _ _ _ ha.2, deref_assign_ne _ ha.1]

/-- Writing through a value keeps values apart. -/
theorem apart_store : ∀ {V : Type} (t : Ty K V) (h : Heap t) (v : Val t) (s' : t.block.State),
    (∀ w, Apart t h v w → Apart t (store t h v s').1 (store t h v s').2 w) ∧
      ∀ y w, Apart t h y w → Apart t (store t h v s').1 y w := by
  intro V t
  induction t with
  | array | other => exact fun _ _ _ => ⟨fun _ _ => trivial, fun _ _ _ => trivial⟩
  | flushStopper c ih => exact ih
  | sequential c ih =>
    intro h p s'
    have key : ∀ y w, Apart (.sequential c) h y w → Apart (.sequential c) (store (.sequential c) h p s').1 y w := by
      intro y w ha
      simp only [store]
      cases hd : deref h.1 p with
      | none => exact ha
      | some x =>
        obtain ⟨ih1, ih2⟩ := ih h.2 x s'
        refine ⟨ha.1, fun a b h1 h2 => ?_⟩
        by_cases e1 : p = y
        · subst e1
          have e2 : deref (assign h.1 p (store c h.2 x s').2) w = deref h.1 w := deref_assign_ne _ ha.1
          rw [e2] at h2
          rw [deref_assign_same hd] at h1
          cases h1
          exact ih1 _ (ha.2 x b hd h2)
        · have e2 : deref (assign h.1 p (store c h.2 x s').2) y = deref h.1 y := deref_assign_ne _ e1
          rw [e2] at h1
          by_cases e3 : p = w
          · subst e3
            rw [deref_assign_same hd] at h2
            cases h2
            exact Apart.symm _ _ _ _ (ih1 _ (Apart.symm _ _ _ _ (ha.2 a x h1 hd)))
          · have e4 : deref (assign h.1 p (store c h.2 x s').2) w = deref h.1 w := deref_assign_ne _ e3
            rw [e4] at h2
            exact ih2 _ _ (ha.2 a b h1 h2)
    refine ⟨fun w ha => ?_, key⟩
    have e : (store (.sequential c) h p s').2 = p := by
      simp only [store]; cases deref h.1 p <;> rfl
    rw [e]
    exact key p w ha
  | decorator D A c ih =>
    intro h v s'
    exact ⟨fun w ha => (ih _ _ _).1 _ ha, fun y w ha => (ih _ _ _).2 _ _ ha⟩
  | profiler c ih =>
    intro h v s'
    exact ⟨fun w ha => ⟨ha.1, (ih _ _ _).1 _ ha.2⟩, fun y w ha => ⟨ha.1, (ih _ _ _).2 _ _ ha.2⟩⟩

theorem Same.symm : ∀ {V : Type} (t : Ty K V) (v w : Val t), Same t v w → Same t w v := by
  intro V t
  induction t with
  | array | other | flushStopper => exact fun _ _ h => h
  | sequential c ih => exact fun _ _ h => Eq.symm h
  | decorator D A c ih => exact fun v w h => ⟨h.1, ih _ _ h.2⟩
  | profiler c ih => exact fun v w h => ⟨h.1.symm, ih _ _ h.2⟩

theorem Same.trans : ∀ {V : Type} (t : Ty K V) (v w u : Val t), Same t v w → Same t w u → Same t v u := by
  intro V t
  induction t with
  | array | other | flushStopper => exact fun _ _ _ h => h.elim
  | sequential c ih => exact fun _ _ _ h g => Eq.trans h g
  | decorator D A c ih => exact fun v w u h g => ⟨h.1, ih _ _ _ h.2 g.2⟩
  | profiler c ih => exact fun v w u h g => ⟨h.1.trans g.1, ih _ _ _ h.2 g.2⟩

theorem load_same : ∀ {V : Type} (t : Ty K V) (h : Heap t) (v w : Val t), Same t v w → load t h v = load t h w := by
  intro V t
  induction t with
  | array | other | flushStopper => exact fun _ _ _ h => h.elim
  | sequential c ih => intro h p q e; cases (show p = q from e); rfl
  | decorator D A c ih =>
    intro h v w e
    have := e.1
    have e1 : load c h v.1 = load c h w.1 := ih h v.1 w.1 e.2
    have e2 : v.2 = w.2 := Subsingleton.elim (α := D.Factory) _ _
    simp only [load]
    rw [e1, e2]
  | profiler c ih =>
    intro h v w e
    simp only [load]
    rw [ih _ _ _ e.2, show v.2 = w.2 from e.1]

theorem apart_same : ∀ {V : Type} (t : Ty K V) (h : Heap t) (v w u : Val t), Same t v w → Apart t h v u → Apart t h w u := by
  intro V t
  induction t with
  | array | other | flushStopper => exact fun _ _ _ _ h => h.elim
  | sequential c ih => intro h p q u e; cases (show p = q from e); exact id
  | decorator D A c ih => exact fun h v w u e a => ih _ _ _ _ e.2 a
  | profiler c ih => exact fun h v w u e a => ⟨fun x => a.1 (e.1.trans x), ih _ _ _ _ e.2 a.2⟩

theorem same_store : ∀ {V : Type} (t : Ty K V) (h : Heap t) (v w : Val t) (s : t.block.State), Same t v w →
    Same t (store t h v s).2 w := by
  intro V t
  induction t with
  | array | other | flushStopper => exact fun _ _ _ _ h => h.elim
  | sequential c ih =>
    intro h p q s e
    have : (store (.sequential c) h p s).2 = p := by
      simp only [store]; cases deref h.1 p <;> rfl
    rw [this]
    exact e
  | decorator D A c ih => exact fun h v w s e => ⟨e.1, ih _ _ _ _ e.2⟩
  | profiler c ih => exact fun h v w s e => ⟨e.1, ih _ _ _ _ e.2⟩

/-- What a copy does to the memory: everything stays, the copy is equal to the original and apart from everything. -/
theorem copy_spec : ∀ {V : Type} (t : Ty K V) (h h' : Heap t) (v v' : Val t), copy t h v = some (h', v') →
    (∀ s, load t h v = some s → load t h' v' = some s) ∧
    (∀ w s, load t h w = some s → load t h' w = some s) ∧
    (∀ w s, load t h w = some s → Apart t h' v' w) ∧
    ∀ y w s r, load t h y = some s → load t h w = some r → Apart t h y w → Apart t h' y w := by
  intro V t
  induction t with
  | array =>
    intro h h' v v' e
    cases e
    exact ⟨fun _ => id, fun _ _ => id, fun _ _ _ => trivial, fun _ _ _ _ _ _ => id⟩
  | other => intro h h' v v' e; cases e
  | flushStopper c ih => exact ih
  | profiler => intro h h' v v' e; cases e
  | decorator D A c ih =>
    intro h h' v v' e
    simp only [copy] at e
    cases hc : copy c h v.1 with
    | none => simp [hc] at e
    | some r =>
      simp only [hc, Option.bind_eq_bind, Option.bind_some] at e
      cases e
      obtain ⟨i1, i2, i3, i4⟩ := ih _ _ _ _ hc
      have low : ∀ (w : Val (.decorator D A c)) s, load (.decorator D A c) h w = some s → load c h w.1 = some s.1 ∧ w.2 = s.2 := by
        intro w s hl
        simp only [load] at hl
        cases hx : load c h w.1 with
        | none => simp [hx] at hl
        | some x => simp only [hx, Option.bind_eq_bind, Option.bind_some] at hl; cases hl; exact ⟨rfl, rfl⟩
      refine ⟨fun s hl => ?_, fun w s hl => ?_, fun w s hl => i3 _ _ (low w s hl).1,
        fun y w s r hy hw ha => i4 _ _ _ _ (low y s hy).1 (low w r hw).1 ha⟩
      · obtain ⟨l1, l2⟩ := low v s hl
        simp only [load]
        rw [i1 _ l1, l2]
        rfl
      · obtain ⟨l1, l2⟩ := low w s hl
        simp only [load]
        rw [i2 _ _ l1, l2]
        rfl
  | sequential c ih =>
    intro h h' p p' e
    simp only [copy] at e
    cases hd : deref h.1 p with
    | none => simp [hd] at e
    | some x =>
      simp only [hd, Option.bind_eq_bind, Option.bind_some] at e
      cases hc : copy c h.2 x with
      | none => simp [hc] at e
      | some r =>
        simp only [hc, Option.bind_some] at e
        cases e
        obtain ⟨i1, i2, i3, i4⟩ := ih _ _ _ _ hc
        have low : ∀ (w : Val (.sequential c)) s, load (.sequential c) h w = some s →
            ∃ y, deref h.1 w = some y ∧ load c h.2 y = some s := by
          intro w s hl
          simp only [load] at hl
          cases hx : deref h.1 w with
          | none => simp [hx] at hl
          | some y => simp only [hx, Option.bind_eq_bind, Option.bind_some] at hl; exact ⟨y, rfl, hl⟩
        refine ⟨fun s hl => ?_, fun w s hl => ?_, fun w s hl => ?_, fun y w s _ hy hw ha => ?_⟩
        · obtain ⟨y, l1, l2⟩ := low p s hl
          rw [hd] at l1
          cases l1
          have := i1 s l2
          simp only [load]
          rw [deref_last]
          exact this
        · obtain ⟨y, l1, l2⟩ := low w s hl
          simp only [load]
          rw [deref_append _ l1]
          exact i2 _ _ l2
        · obtain ⟨y, l1, l2⟩ := low w s hl
          refine ⟨fun e => Nat.lt_irrefl _ (lt_of_lt_of_eq (deref_lt l1) e), fun a b h1 h2 => ?_⟩
          have e1 := deref_last h.1 r.2
          rw [e1] at h1
          have e2 := deref_append r.2 l1
          rw [e2] at h2
          cases h1
          cases h2
          exact i3 _ _ l2
        · obtain ⟨y', l1, l2⟩ := low y s hy
          obtain ⟨w', l3, l4⟩ := low w _ hw
          refine ⟨ha.1, fun a b h1 h2 => ?_⟩
          have e1 := deref_append r.2 l1
          rw [e1] at h1
          have e2 := deref_append r.2 l3
          rw [e2] at h2
          cases h1
          cases h2
          exact i4 _ _ _ _ l2 l4 (ha.2 _ _ l1 l3)

end Byoc.CloneHeap
