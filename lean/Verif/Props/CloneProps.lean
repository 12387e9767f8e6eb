import Verif.Proofs.CloneHeap
import Verif.Model.Policies
import Verif.Props.ArrayProps
import Verif.Props.PolicyProps

/-!
# C122: copies are independent, handles are the same container
-/

set_option linter.unusedSectionVars false

namespace Byoc
namespace CloneProps

open CloneHeap

variable {K V : Type} [LinearOrder K]

/-! ## The specification -/

/-- The containers that implement `Clone`: `Array`, and `FlushStopper`, `Sequential` and `Decorator` of such. -/
def IsClone : {V : Type} → Ty K V → Bool
  | _, .array _ _ _ => true
  | _, .other _ _ => false
  | _, .flushStopper c => IsClone c
  | _, .sequential c => IsClone c
  | _, .decorator _ _ c => IsClone c
  | _, .profiler _ => false

/-- The containers that implement `Concurrent`: `Sequential` of anything, and `Decorator` and `Profiler` of such. -/
def IsConcurrent : {V : Type} → Ty K V → Bool
  | _, .array _ _ _ => false
  | _, .other _ _ => false
  | _, .flushStopper _ => false
  | _, .sequential _ => true
  | _, .decorator _ _ c => IsConcurrent c
  | _, .profiler c => IsConcurrent c

/-- Outside of the `Sequential` there is no decorator with a state of its own (a `Fifo` is one: C56). -/
def SharesAll : {V : Type} → Ty K V → Prop
  | _, .decorator D _ c => Subsingleton D.Factory ∧ SharesAll c
  | _, .profiler c => SharesAll c
  | _, _ => True

/-- What is expected: there are containers, and each value of the users is a handle on one of them. -/
structure Expected (t : Ty K V) where
  containers : List t.block.State
  which : List Nat

/-- A call acts on the container of the value; `Clone::clone` makes another container, equal to the first at this time;
`Concurrent::clone` makes another handle on the container. -/
def expect (t : Ty K V) (e : Expected t) : Event K V → Res (Option (Seq.SObs K V) × Expected t)
  | .use i u =>
    match e.which[i]? with
    | none => .ok (none, e)
    | some c => match e.containers[c]? with
      | none => .ok (none, e)
      | some s => do
        let (r, s') ← t.use s u
        pure (some r, ⟨e.containers.set c s', e.which⟩)
  | .copy i =>
    match e.which[i]? with
    | none => .ok (none, e)
    | some c => match e.containers[c]? with
      | none => .ok (none, e)
      | some s =>
        if IsClone t then .ok (none, ⟨e.containers ++ [s], e.which ++ [e.containers.length]⟩) else .ok (none, e)
  | .handle i =>
    match e.which[i]? with
    | none => .ok (none, e)
    | some c => if IsConcurrent t then .ok (none, ⟨e.containers, e.which ++ [c]⟩) else .ok (none, e)

/-- A history. -/
def expects (t : Ty K V) (e : Expected t) : List (Event K V) → Res (List (Option (Seq.SObs K V)) × Expected t)
  | [] => .ok ([], e)
  | x :: l => do
    let (r, e) ← expect t e x
    let (rs, e) ← expects t e l
    pure (r :: rs, e)

/-- Each value leads to the container it is a handle on. -/
def Leads (t : Ty K V) (s : State t) (e : Expected t) : Prop :=
  s.vals.length = e.which.length ∧ ∀ (i : Nat) (v : Val t), s.vals[i]? = some v →
    ∃ c st, e.which[i]? = some c ∧ e.containers[c]? = some st ∧ load t s.heap v = some st

/-! ## The invariant -/

structure Agree (t : Ty K V) (s : State t) (e : Expected t) : Prop where
  leads : Leads t s e
  apart : ∀ (i j : Nat) (v w : Val t) (c d : Nat), s.vals[i]? = some v → s.vals[j]? = some w → e.which[i]? = some c →
    e.which[j]? = some d → c ≠ d → Apart t s.heap v w
  same : ∀ (i j : Nat) (v w : Val t) (c : Nat), i ≠ j → s.vals[i]? = some v → s.vals[j]? = some w →
    e.which[i]? = some c → e.which[j]? = some c → Same t v w

theorem copy_isClone : ∀ {V : Type} (t : Ty K V) (h : Heap t) (v : Val t) (s : t.block.State), load t h v = some s →
    (copy t h v).isSome = IsClone t := by
  intro V t
  induction t with
  | array | other => intros; rfl
  | profiler => intros; rfl
  | flushStopper c ih => exact ih
  | sequential c ih =>
    intro h p s hl
    simp only [load, copy, IsClone] at *
    cases hd : deref h.1 p with
    | none => simp [hd] at hl
    | some x =>
      simp only [hd, Option.bind_eq_bind, Option.bind_some] at hl ⊢
      rw [← ih _ _ _ hl]
      cases copy c h.2 x <;> rfl
  | decorator D A c ih =>
    intro h v s hl
    simp only [load, copy, IsClone] at *
    cases hd : load c h v.1 with
    | none => simp [hd] at hl
    | some x =>
      rw [← ih _ _ _ hd]
      cases hc : copy c h v.1 <;> simp

theorem handle_isConcurrent : ∀ {V : Type} (t : Ty K V) (v : Val t), (handle t v).isSome = IsConcurrent t := by
  intro V t
  induction t with
  | array | other | flushStopper | sequential => intros; rfl
  | decorator D A c ih =>
    intro v
    simp only [handle, IsConcurrent]
    rw [← ih v.1]
    cases handle c v.1 <;> rfl
  | profiler c ih =>
    intro v
    simp only [handle, IsConcurrent]
    rw [← ih v.1]
    cases handle c v.1 <;> rfl

theorem handle_same : ∀ {V : Type} (t : Ty K V) (v w : Val t), SharesAll t → handle t v = some w → Same t v w := by
  intro V t
  induction t with
  | array | other | flushStopper => intro v w _ h; cases h
  | sequential c ih => intro v w _ h; cases h; rfl
  | decorator D A c ih =>
    intro v w hs h
    simp only [handle] at h
    cases hc : handle c v.1 with
    | none => simp [hc] at h
    | some x =>
      simp only [hc, Option.bind_eq_bind, Option.bind_some] at h
      cases h
      exact ⟨hs.1, ih _ _ hs.2 hc⟩
  | profiler c ih =>
    intro v w hs h
    simp only [handle] at h
    cases hc : handle c v.1 with
    | none => simp [hc] at h
    | some x =>
      simp only [hc, Option.bind_eq_bind, Option.bind_some] at h
      cases h
      exact ⟨rfl, ih _ _ hs hc⟩

theorem which_of {t : Ty K V} {s : State t} {e : Expected t} (h : Leads t s e) (i : Nat) :
    (s.vals[i]? = none ∧ e.which[i]? = none) ∨ ∃ v c st, s.vals[i]? = some v ∧ e.which[i]? = some c ∧
      e.containers[c]? = some st ∧ load t s.heap v = some st := by
  cases hv : s.vals[i]? with
  | none =>
    left
    refine ⟨rfl, ?_⟩
    rw [List.getElem?_eq_none_iff] at *
    rw [← h.1]
    exact hv
  | some v =>
    right
    obtain ⟨c, st, h1, h2, h3⟩ := h.2 i v hv
    exact ⟨v, c, st, rfl, h1, h2, h3⟩

/-- A call. -/
theorem Agree.use {t : Ty K V} {s : State t} {e : Expected t} (h : Agree t s e) {i : Nat} {v : Val t} {c : Nat}
    {st : t.block.State} (hv : s.vals[i]? = some v) (hc : e.which[i]? = some c) (hs : e.containers[c]? = some st)
    (hl : load t s.heap v = some st) (st' : t.block.State) :
    Agree t ⟨(store t s.heap v st').1, s.vals.set i (store t s.heap v st').2⟩ ⟨e.containers.set c st', e.which⟩ := by
  have hi : i < s.vals.length := (List.getElem?_eq_some_iff.1 hv).1
  have hc' : c < e.containers.length := (List.getElem?_eq_some_iff.1 hs).1
  have at_i : ∀ w, (s.vals.set i (store t s.heap v st').2)[i]? = some w → w = (store t s.heap v st').2 := by
    intro w hw; simp [hi] at hw; exact hw.symm
  have at_j : ∀ j, j ≠ i → (s.vals.set i (store t s.heap v st').2)[j]? = s.vals[j]? := by
    intro j hj; simp [Ne.symm hj]
  refine ⟨⟨by simp [h.leads.1], fun j w hw => ?_⟩, ?_, ?_⟩
  · by_cases hj : j = i
    · subst hj
      rw [at_i _ hw]
      exact ⟨c, st', hc, by simp [hc'], load_store _ _ _ _ _ hl⟩
    · have hw : s.vals[j]? = some w := (at_j j hj).symm.trans hw
      obtain ⟨d, sd, h1, h2, h3⟩ := h.leads.2 j w hw
      by_cases hd : d = c
      · subst hd
        refine ⟨d, st', h1, by simp [hc'], ?_⟩
        have := h.same i j v w d (Ne.symm hj) hv hw hc h1
        rw [← load_same _ _ _ _ (same_store _ s.heap _ _ st' this)]
        exact load_store _ _ _ _ _ hl
      · refine ⟨d, sd, h1, by simp [Ne.symm hd, h2], ?_⟩
        have := load_store_apart _ _ _ _ st' (h.apart i j v w c d hv hw hc h1 (Ne.symm hd))
        exact this.trans h3
  · intro j k w u a b hw hu ha hb hab
    by_cases hj : j = i
    · subst hj
      by_cases hk : k = j
      · subst hk
        exact absurd (Option.some.inj (ha.symm.trans hb)) hab
      · have hu : s.vals[k]? = some u := (at_j k hk).symm.trans hu
        rw [at_i _ hw]
        exact (apart_store _ _ _ _).1 _ (h.apart j k v u a b hv hu ha hb hab)
    · replace hw : s.vals[j]? = some w := (at_j j hj).symm.trans hw
      by_cases hk : k = i
      · subst hk
        rw [at_i _ hu]
        exact Apart.symm _ _ _ _ ((apart_store _ _ _ _).1 _ (h.apart k j v w b a hv hw hb ha (Ne.symm hab)))
      · have hu : s.vals[k]? = some u := (at_j k hk).symm.trans hu
        exact (apart_store _ _ _ _).2 _ _ (h.apart j k w u a b hw hu ha hb hab)
  · intro j k w u a hjk hw hu ha hb
    by_cases hj : j = i
    · subst hj
      have hu : s.vals[k]? = some u := (at_j k (Ne.symm hjk)).symm.trans hu
      rw [at_i _ hw]
      exact same_store _ _ _ _ _ (h.same j k v u a hjk hv hu ha hb)
    · replace hw : s.vals[j]? = some w := (at_j j hj).symm.trans hw
      by_cases hk : k = i
      · subst hk
        rw [at_i _ hu]
        exact Same.symm _ _ _ (same_store _ _ _ _ _ (h.same k j v w a (Ne.symm hjk) hv hw hb ha))
      · have hu : s.vals[k]? = some u := (at_j k hk).symm.trans hu
        exact h.same j k w u a hjk hw hu ha hb

theorem snoc_cases {α : Type} {l : List α} {x y : α} {j : Nat} (h : (l ++ [x])[j]? = some y) :
    (j = l.length ∧ y = x) ∨ l[j]? = some y := by
  by_cases hj : j < l.length
  · rw [List.getElem?_append_left hj] at h; exact .inr h
  · have hlt := (List.getElem?_eq_some_iff.1 h).1
    simp at hlt
    have : j = l.length := by omega
    subst this
    simp at h
    exact .inl ⟨rfl, h.symm⟩

theorem snoc_old {α : Type} {l : List α} {x y : α} {j : Nat} (h : l[j]? = some y) : (l ++ [x])[j]? = some y := by
  rw [List.getElem?_append_left (List.getElem?_eq_some_iff.1 h).1, h]

/-- A copy. -/
theorem Agree.copy {t : Ty K V} {s : State t} {e : Expected t} (h : Agree t s e) {i : Nat} {v : Val t} {c : Nat}
    {st : t.block.State} (_hv : s.vals[i]? = some v) (_hc : e.which[i]? = some c) (_hs : e.containers[c]? = some st)
    (hl : load t s.heap v = some st) {h' : Heap t} {v' : Val t} (hcp : copy t s.heap v = some (h', v')) :
    Agree t ⟨h', s.vals ++ [v']⟩ ⟨e.containers ++ [st], e.which ++ [e.containers.length]⟩ := by
  obtain ⟨c1, c2, c3, c4⟩ := copy_spec t _ _ _ _ hcp
  have hlen := h.leads.1
  have old : ∀ (j : Nat) (w : Val t), s.vals[j]? = some w → ∀ d, (e.which ++ [e.containers.length])[j]? = some d →
      e.which[j]? = some d ∧ d < e.containers.length := by
    intro j w hw d hd
    obtain ⟨d', sd, h1, h2, -⟩ := h.leads.2 j w hw
    have := (snoc_old (x := e.containers.length) h1).symm.trans hd
    cases this
    exact ⟨h1, (List.getElem?_eq_some_iff.1 h2).1⟩
  have fresh : ∀ d, (e.which ++ [e.containers.length])[s.vals.length]? = some d → d = e.containers.length := by
    intro d hd
    rw [hlen] at hd
    simp at hd
    exact hd.symm
  refine ⟨⟨by simp [hlen], fun j w hw => ?_⟩, ?_, ?_⟩
  · replace hw := snoc_cases hw; rcases hw with ⟨rfl, rfl⟩ | hw
    · exact ⟨e.containers.length, st, by simp [hlen], by simp, c1 _ hl⟩
    · obtain ⟨d, sd, h1, h2, h3⟩ := h.leads.2 j w hw
      exact ⟨d, sd, snoc_old h1, snoc_old h2, c2 _ _ h3⟩
  · intro j k w u a b hw hu ha hb hab
    replace hw := snoc_cases hw; rcases hw with ⟨rfl, rfl⟩ | hw
    · replace hu := snoc_cases hu; rcases hu with ⟨rfl, rfl⟩ | hu
      · exact absurd ((fresh _ ha).trans (fresh _ hb).symm) hab
      · obtain ⟨_, sd, _, _, h3⟩ := h.leads.2 k u hu
        exact c3 _ _ h3
    · obtain ⟨_, sw, _, _, h3⟩ := h.leads.2 j w hw
      replace hu := snoc_cases hu; rcases hu with ⟨rfl, rfl⟩ | hu
      · exact Apart.symm _ _ _ _ (c3 _ _ h3)
      · obtain ⟨_, su, _, _, h4⟩ := h.leads.2 k u hu
        exact c4 _ _ _ _ h3 h4 (h.apart j k w u a b hw hu (old j w hw a ha).1 (old k u hu b hb).1 hab)
  · intro j k w u a hjk hw hu ha hb
    replace hw := snoc_cases hw; rcases hw with ⟨rfl, rfl⟩ | hw
    · replace hu := snoc_cases hu; rcases hu with ⟨rfl, rfl⟩ | hu
      · exact absurd rfl hjk
      · have := (old k u hu a hb).2
        rw [fresh _ ha] at this
        exact absurd this (Nat.lt_irrefl _)
    · replace hu := snoc_cases hu; rcases hu with ⟨rfl, rfl⟩ | hu
      · have := (old j w hw a ha).2
        rw [fresh _ hb] at this
        exact absurd this (Nat.lt_irrefl _)
      · exact h.same j k w u a hjk hw hu (old j w hw a ha).1 (old k u hu a hb).1

/-- A handle. -/
theorem Agree.handle {t : Ty K V} {s : State t} {e : Expected t} (h : Agree t s e) {i : Nat} {v : Val t} {c : Nat}
    {st : t.block.State} (hv : s.vals[i]? = some v) (hc : e.which[i]? = some c) (hs : e.containers[c]? = some st)
    (hl : load t s.heap v = some st) {w : Val t} (hw : Same t v w) :
    Agree t ⟨s.heap, s.vals ++ [w]⟩ ⟨e.containers, e.which ++ [c]⟩ := by
  have hlen := h.leads.1
  have old : ∀ (j : Nat) (w : Val t), s.vals[j]? = some w → ∀ d, (e.which ++ [c])[j]? = some d → e.which[j]? = some d := by
    intro j w hw d hd
    obtain ⟨d', sd, h1, h2, -⟩ := h.leads.2 j w hw
    have := (snoc_old (x := c) h1).symm.trans hd
    cases this
    exact h1
  have fresh : ∀ d, (e.which ++ [c])[s.vals.length]? = some d → d = c := by
    intro d hd
    rw [hlen] at hd
    simp at hd
    exact hd.symm
  have all : ∀ (j : Nat) (u : Val t), s.vals[j]? = some u → e.which[j]? = some c → Same t w u := by
    intro j u hu hj
    by_cases e : i = j
    · subst e
      cases hv.symm.trans hu
      exact Same.symm _ _ _ hw
    · exact Same.trans _ _ _ _ (Same.symm _ _ _ hw) (h.same i j v u c e hv hu hc hj)
  refine ⟨⟨by simp [hlen], fun j u hu => ?_⟩, ?_, ?_⟩
  · replace hu := snoc_cases hu; rcases hu with ⟨rfl, rfl⟩ | hu
    · exact ⟨c, st, by simp [hlen], hs, (load_same _ _ _ _ hw).symm.trans hl⟩
    · obtain ⟨d, sd, h1, h2, h3⟩ := h.leads.2 j u hu
      exact ⟨d, sd, snoc_old h1, h2, h3⟩
  · intro j k x u a b hx hu ha hb hab
    replace hx := snoc_cases hx; rcases hx with ⟨rfl, rfl⟩ | hx
    · replace hu := snoc_cases hu; rcases hu with ⟨rfl, rfl⟩ | hu
      · exact absurd ((fresh _ ha).trans (fresh _ hb).symm) hab
      · rw [fresh _ ha] at hab
        exact apart_same _ _ _ _ _ hw (h.apart i k v u c b hv hu hc (old k u hu b hb) hab)
    · replace hu := snoc_cases hu; rcases hu with ⟨rfl, rfl⟩ | hu
      · rw [fresh _ hb] at hab
        exact Apart.symm _ _ _ _ (apart_same _ _ _ _ _ hw (h.apart i j v x c a hv hx hc (old j x hx a ha) (Ne.symm hab)))
      · exact h.apart j k x u a b hx hu (old j x hx a ha) (old k u hu b hb) hab
  · intro j k x u a hjk hx hu ha hb
    replace hx := snoc_cases hx; rcases hx with ⟨rfl, rfl⟩ | hx
    · replace hu := snoc_cases hu; rcases hu with ⟨rfl, rfl⟩ | hu
      · exact absurd rfl hjk
      · have := old k u hu a hb
        rw [fresh _ ha] at this
        exact all k u hu this
    · replace hu := snoc_cases hu; rcases hu with ⟨rfl, rfl⟩ | hu
      · have := old j x hx a ha
        rw [fresh _ hb] at this
        exact Same.symm _ _ _ (all j x hx this)
      · exact h.same j k x u a hjk hx hu (old j x hx a ha) (old k u hu a hb)

/-- One event. -/
theorem Agree.step {t : Ty K V} {s : State t} {e : Expected t} (h : Agree t s e) (x : Event K V)
    (hx : SharesAll t ∨ ∀ i, x ≠ .handle i) :
    (∃ r s' e', CloneHeap.step t s x = .ok (r, s') ∧ expect t e x = .ok (r, e') ∧ Agree t s' e') ∨
      CloneHeap.step t s x = .panic ∧ expect t e x = .panic := by
  cases x with
  | use i u =>
    rcases which_of h.leads i with ⟨h1, h2⟩ | ⟨v, c, st, h1, h2, h3, h4⟩
    · exact .inl ⟨none, s, e, by simp [CloneHeap.step, h1], by simp [expect, h2], h⟩
    · cases hu : t.use st u with
      | panic => exact .inr ⟨by simp [CloneHeap.step, h1, h4, hu], by simp [expect, h2, h3, hu]⟩
      | ok p =>
        obtain ⟨r, st'⟩ := p
        exact .inl ⟨some r, _, _, by simp [CloneHeap.step, h1, h4, hu], by simp [expect, h2, h3, hu],
          h.use h1 h2 h3 h4 st'⟩
  | copy i =>
    left
    rcases which_of h.leads i with ⟨h1, h2⟩ | ⟨v, c, st, h1, h2, h3, h4⟩
    · exact ⟨none, s, e, by simp [CloneHeap.step, h1], by simp [expect, h2], h⟩
    · have hcl := copy_isClone t _ _ _ h4
      cases hc : CloneHeap.copy t s.heap v with
      | none =>
        rw [hc] at hcl
        exact ⟨none, s, e, by simp [CloneHeap.step, h1, hc], by simp [expect, h2, h3, ← hcl], h⟩
      | some w =>
        rw [hc] at hcl
        exact ⟨none, _, _, by simp [CloneHeap.step, h1, hc], by simp [expect, h2, h3, ← hcl],
          h.copy h1 h2 h3 h4 hc⟩
  | handle i =>
    left
    have hx := hx.resolve_right (fun g => g i rfl)
    rcases which_of h.leads i with ⟨h1, h2⟩ | ⟨v, c, st, h1, h2, h3, h4⟩
    · exact ⟨none, s, e, by simp [CloneHeap.step, h1], by simp [expect, h2], h⟩
    · have hcl := handle_isConcurrent t v
      cases hc : CloneHeap.handle t v with
      | none =>
        rw [hc] at hcl
        exact ⟨none, s, e, by simp [CloneHeap.step, h1, hc], by simp [expect, h2, ← hcl], h⟩
      | some w =>
        rw [hc] at hcl
        exact ⟨none, _, _, by simp [CloneHeap.step, h1, hc], by simp [expect, h2, ← hcl],
          h.handle h1 h2 h3 h4 (handle_same t v w hx hc)⟩

theorem Agree.run {t : Ty K V} : ∀ (l : List (Event K V)) {s : State t} {e : Expected t}, Agree t s e →
    (SharesAll t ∨ ∀ i, .handle i ∉ l) →
    (∃ rs s' e', CloneHeap.run t s l = .ok (rs, s') ∧ expects t e l = .ok (rs, e') ∧ Agree t s' e') ∨
      CloneHeap.run t s l = .panic ∧ expects t e l = .panic
  | [], s, e, h, _ => .inl ⟨[], s, e, rfl, rfl, h⟩
  | x :: l, s, e, h, hl => by
    have hx : SharesAll t ∨ ∀ i, x ≠ .handle i := hl.imp id fun g i hi => g i (by rw [hi]; exact .head _)
    have hl' : SharesAll t ∨ ∀ i, (.handle i : Event K V) ∉ l := hl.imp id fun g i hi => g i (.tail _ hi)
    rcases h.step x hx with ⟨r, s', e', h1, h2, h3⟩ | ⟨h1, h2⟩
    · rcases Agree.run l h3 hl' with ⟨rs, s'', e'', g1, g2, g3⟩ | ⟨g1, g2⟩
      · exact .inl ⟨r :: rs, s'', e'', by simp [CloneHeap.run, h1, g1], by simp [expects, h2, g2], g3⟩
      · exact .inr ⟨by simp [CloneHeap.run, h1, g1], by simp [expects, h2, g2]⟩
    · exact .inr ⟨by simp [CloneHeap.run, h1], by simp [expects, h2]⟩

/-! ## C122 -/

/-- **C122.** Start from any container, and use it, its copies and its handles in any order.  Every call returns what it
returns when the copies are containers of their own and the handles are the container they were made from, panics
when this panics, and after the history each value leads to what the container it stands for is then.  (With a decorator
that has a state outside of the `Sequential`, this holds if no handles are made: see C56.) -/
theorem C122 (t : Ty K V) (s₀ : t.block.State) (l : List (Event K V)) (hl : SharesAll t ∨ ∀ i, .handle i ∉ l) :
    (∃ rs s e, CloneHeap.run t ⟨(new t s₀).1, [(new t s₀).2]⟩ l = .ok (rs, s) ∧
        expects t ⟨[s₀], [0]⟩ l = .ok (rs, e) ∧ Leads t s e) ∨
      CloneHeap.run t ⟨(new t s₀).1, [(new t s₀).2]⟩ l = .panic ∧ expects t ⟨[s₀], [0]⟩ l = .panic := by
  have hA : Agree t ⟨(new t s₀).1, [(new t s₀).2]⟩ ⟨[s₀], [0]⟩ := by
    have one : ∀ {α : Type} (x y : α) (i : Nat), [x][i]? = some y → i = 0 ∧ y = x := by
      intro α x y i h
      cases i with
      | zero => simp at h; exact ⟨rfl, h.symm⟩
      | succ i => simp at h
    refine ⟨⟨rfl, fun i v hv => ?_⟩, ?_, ?_⟩
    · obtain ⟨rfl, rfl⟩ := one _ _ _ hv
      exact ⟨0, s₀, rfl, rfl, load_new t s₀⟩
    · intro i j v w c d _ _ hc hd hcd
      exact absurd ((one _ _ _ hc).2.trans (one _ _ _ hd).2.symm) hcd
    · intro i j v w c hij hv hw _ _
      exact absurd ((one _ _ _ hv).1.trans (one _ _ _ hw).1.symm) hij
  rcases hA.run l hl with ⟨rs, s, e, h1, h2, h3⟩ | h
  · exact .inl ⟨rs, s, e, h1, h2, h3.leads⟩
  · exact .inr h

/-! ## The hypotheses are met -/

/-- A `Profiler` of a `Sequential` of an `Array`: handles, no copies. -/
def profiled : Ty Nat Nat := .profiler (.sequential (.array (fun _ => 1) ArrayProps.natSorter ArrayProps.natSorter))

/-- A `Sequential` of an `Array`: handles and copies. -/
def shared : Ty Nat Nat := .sequential (.array (fun _ => 1) ArrayProps.natSorter ArrayProps.natSorter)

/-- A `Sequential` with a `Fifo` outside of it. -/
def fifoShared : Ty Nat Nat :=
  .decorator (fifo Nat) (fifoAccess Nat) (.sequential (.array (fun _ => 1) PolicyProps.fifoSorter PolicyProps.fifoSorter))

/-- Value 1 is a copy of value 0, value 2 a handle on value 0, value 3 a copy of value 2. -/
def demo : List (Event Nat Nat) :=
  [.use 0 (.op (.push [(1, 10)])), .copy 0, .handle 0, .use 1 (.op (.push [(2, 20)])), .use 2 (.op (.push [(3, 30)])),
   .copy 2, .use 0 (.op (.contains 2)), .use 0 (.op (.contains 3)), .use 1 (.op (.contains 3)),
   .use 0 (.op (.take 1)), .use 2 .size, .use 3 .size]

/-- What the users see is this. -/
example : ∃ s, CloneHeap.run shared ⟨(new shared (Array.new 4)).1, [(new shared (Array.new 4)).2]⟩ demo =
    .ok ([some (.obs (.many [])), none, none, some (.obs (.many [])), some (.obs (.many [])), none,
      some (.obs (.bool false)), some (.obs (.bool true)), some (.obs (.bool false)), some (.obs (.opt (some (1, 10)))),
      some (.num 1), some (.num 2)], s) ∧ s.vals.length = 4 := ⟨_, rfl, rfl⟩

example := C122 shared (Array.new 4) demo (.inl trivial)

example : SharesAll profiled ∧ IsConcurrent profiled = true ∧ IsClone profiled = false := ⟨trivial, rfl, rfl⟩

/-- Copies of a container with a `Fifo` outside of the `Sequential`. -/
example := C122 fifoShared (Array.new 4, (0 : Nat))
  [.use 0 (.op (.push [(1, 10)])), .copy 0, .use 0 (.op (.pop 1)), .use 1 (.op (.push [(2, 20)])), .use 1 (.op (.pop 1))]
  (.inr (by intro i; simp))

/-- The handle is made first, and then its counter stays behind that of the first handle. -/
def late : List (Event Nat Nat) :=
  [.handle 0, .use 0 (.op (.push [(1, 10)])), .use 0 (.op (.take 1)), .use 0 (.op (.push [(2, 20)])),
   .use 1 (.op (.push [(3, 30)])), .use 0 (.op (.pop 1))]

/-- Without the condition on decorators the statement is false: `pop` evicts the last pushed. -/
theorem C122_needs_shared_policy :
    (∃ s, CloneHeap.run fifoShared ⟨(new fifoShared (Array.new 4, (0 : Nat))).1,
        [(new fifoShared (Array.new 4, (0 : Nat))).2]⟩ late =
      .ok ([none, some (.obs (.many [])), some (.obs (.opt (some (1, 10)))), some (.obs (.many [])),
        some (.obs (.many [])), some (.obs (.many [(3, 30)]))], s)) ∧
    ∃ e, expects fifoShared ⟨[(Array.new 4, (0 : Nat))], [0]⟩ late =
      .ok ([none, some (.obs (.many [])), some (.obs (.opt (some (1, 10)))), some (.obs (.many [])),
        some (.obs (.many [])), some (.obs (.many [(2, 20)]))], e) := ⟨⟨_, rfl⟩, ⟨_, rfl⟩⟩

end CloneProps
end Byoc
