import Verif.Model.Unwind
import Verif.Proofs.PopOk

/-! # Panics of the user's functions: what the building blocks keep -/

set_option linter.unusedSectionVars false
set_option linter.unusedVariables false
set_option linter.unusedSimpArgs false

namespace Byoc.Unwind

open M

namespace M

variable {σ τ α β : Type}

/-! ## Without panics -/

theorem run_of_res {m : M σ α} {s : σ} {a : α} {s' : σ} (h : m.res s = .ok (a, s')) :
    m.run [] s = (some a, [], s') := by
  have hq := m.quiet s
  unfold res at h
  split at h
  · rename_i a1 w1 s1 h1
    rw [h1] at hq ⊢
    simp at h hq
    simp [h, hq]
  · simp at h

theorem run_of_res_panic {m : M σ α} {s : σ} (h : m.res s = .panic) :
    ∃ s', m.run [] s = (none, [], s') := by
  have hq := m.quiet s
  unfold res at h
  split at h
  · simp at h
  · rename_i w1 s1 h1
    rw [h1] at hq ⊢
    simp at hq
    exact ⟨s1, by simp [hq]⟩

theorem res_of_run {m : M σ α} {w : Fates} {s : σ} {a : α} {w' : Fates} {s' : σ}
    (h : m.run w s = (some a, w', s')) : m.res s = .ok (a, s') := by
  obtain ⟨h1, h2⟩ := m.det _ _ _ _ _ h
  unfold res
  split
  · rename_i a1 w1 s1 h3
    rw [h3] at h1 h2
    simp at h1 h2
    simp [h1, h2]
  · rename_i w1 s1 h3
    rw [h3] at h1
    simp at h1

@[simp] theorem res_pure (a : α) (s : σ) : (pure a : M σ α).res s = .ok (a, s) := rfl

@[simp] theorem res_pure' (a : α) (s : σ) : (M.pure a : M σ α).res s = .ok (a, s) := rfl

theorem res_bind (m : M σ α) (f : α → M σ β) (s : σ) :
    (m >>= f).res s = (m.res s >>= fun p => (f p.1).res p.2) := by
  cases h : m.res s with
  | ok p =>
    obtain ⟨a, s'⟩ := p
    have h1 := run_of_res h
    show (M.bind m f).res s = _
    simp only [M.bind, res, h1, Res.ok_bind]
  | panic =>
    obtain ⟨s', h1⟩ := run_of_res_panic h
    show (M.bind m f).res s = _
    simp only [M.bind, res, h1, Res.panic_bind]

@[simp] theorem res_user (s : σ) : (user : M σ Unit).res s = .ok ((), s) := rfl
@[simp] theorem res_set (s t : σ) : (set s).res t = .ok ((), s) := rfl
@[simp] theorem res_withState (f : σ → M σ α) (s : σ) : (withState f).res s = (f s).res s := rfl
@[simp] theorem res_ofRes (r : Res α) (s : σ) : (ofRes r : M σ α).res s = (r >>= fun a => .ok (a, s)) := by
  cases r <;> rfl
@[simp] theorem res_sort {E : Type} (srt : Sorter E) (left) (l : List E) :
    (sort srt left).res l = .ok ((), srt.run l) := rfl

/-- `some` is a return, `none` a panic. -/
def outcome : Option α → σ → Res (α × σ)
  | some a, s => .ok (a, s)
  | none, _ => .panic

theorem res_eq {m : M σ α} {s : σ} {o w s'} (h : m.run [] s = (o, w, s')) : m.res s = outcome o s' := by
  unfold res; rw [h]; cases o <;> rfl

theorem res_zoom (get : τ → σ) (put : σ → τ → τ) (m : M σ α) (t : τ) :
    (zoom get put m).res t = (m.res (get t) >>= fun p => .ok (p.1, put p.2 t)) := by
  rcases h : m.run [] (get t) with ⟨o, w, s'⟩
  have h2 : (zoom get put m).run [] t = (o, w, put s' t) := by simp [zoom, h]
  rw [res_eq h, res_eq h2]
  cases o <;> rfl

theorem res_fst (m : M σ α) (s : σ) (t : τ) :
    (fst m).res (s, t) = (m.res s >>= fun p => .ok (p.1, (p.2, t))) := res_zoom _ _ m _
theorem res_snd (m : M τ α) (s : σ) (t : τ) :
    (snd m).res (s, t) = (m.res t >>= fun p => .ok (p.1, (s, p.2))) := res_zoom _ _ m _
theorem res_fst' (m : M σ α) (s : σ × τ) :
    (fst m).res s = (m.res s.1 >>= fun p => .ok (p.1, (p.2, s.2))) := res_zoom _ _ m _
theorem res_snd' (m : M τ α) (s : σ × τ) :
    (snd m).res s = (m.res s.2 >>= fun p => .ok (p.1, (s.1, p.2))) := res_zoom _ _ m _

theorem res_head (m : M σ α) (c : σ) (cs : List σ) :
    (head m).res (c :: cs) = (m.res c >>= fun p => .ok (p.1, p.2 :: cs)) := by
  rcases h : m.run [] c with ⟨o, w, s'⟩
  have h2 : (head m).run [] (c :: cs) = (o, w, s' :: cs) := by simp [head, h]
  rw [res_eq h, res_eq h2]
  cases o <;> rfl

theorem res_tail (m : M (List σ) α) (c : σ) (cs : List σ) :
    (tail m).res (c :: cs) = (m.res cs >>= fun p => .ok (p.1, c :: p.2)) := by
  rcases h : m.run [] cs with ⟨o, w, s'⟩
  have h2 : (tail m).run [] (c :: cs) = (o, w, c :: s') := by simp [tail, h]
  rw [res_eq h, res_eq h2]
  cases o <;> rfl

theorem res_atIndex (i : Nat) (m : M σ α) (l : List σ) :
    (atIndex i m).res l = (Res.unwrap l[i]? >>= fun c => m.res c >>= fun p => .ok (p.1, l.set i p.2)) := by
  cases hc : l[i]? with
  | none =>
    have h2 : (atIndex i m).run [] l = (none, [], l) := by simp [atIndex, hc]
    rw [res_eq h2]; rfl
  | some c =>
    rcases h : m.run [] c with ⟨o, w, s'⟩
    have h2 : (atIndex i m).run [] l = (o, w, l.set i s') := by simp [atIndex, hc, h]
    rw [res_eq h2, Res.unwrap_some, Res.ok_bind, res_eq h]
    cases o <;> rfl

theorem res_onLocal (m : M τ α) (t : τ) (s : σ) :
    (onLocal m t).res s = (m.res t >>= fun p => .ok (p, s)) := by
  rcases h : m.run [] t with ⟨o, w, s'⟩
  rw [res_eq h]
  cases o with
  | none =>
    have h2 : (onLocal m t : M σ _).run [] s = (none, w, s) := by simp [onLocal, h]
    rw [res_eq h2]; rfl
  | some a =>
    have h2 : (onLocal m t : M σ _).run [] s = (some (a, s'), w, s) := by simp [onLocal, h]
    rw [res_eq h2]; rfl

theorem res_sigma {ι : Type} {S : ι → Type} (m : ∀ i, M (S i) α) (s : Σ i, S i) :
    (sigma m).res s = ((m s.1).res s.2 >>= fun p => .ok (p.1, ⟨s.1, p.2⟩)) := by
  rcases h : (m s.1).run [] s.2 with ⟨o, w, s'⟩
  have h2 : (sigma m).run [] s = (o, w, ⟨s.1, s'⟩) := by simp [sigma, h]
  rw [res_eq h, res_eq h2]
  cases o <;> rfl

/-! ## States after a panic -/

/-- When `m` panics from `s`, the state it leaves satisfies `E`. -/
def Esc (m : M σ α) (s : σ) (E : σ → Prop) : Prop :=
  ∀ w w' s', m.run w s = (none, w', s') → E s'

theorem Esc.mono {m : M σ α} {s : σ} {E E' : σ → Prop} (h : m.Esc s E) (hE : ∀ s', E s' → E' s') :
    m.Esc s E' := fun w w' s' hr => hE _ (h w w' s' hr)

theorem esc_pure (a : α) (s : σ) (E : σ → Prop) : (pure a : M σ α).Esc s E := by
  intro w w' s' h
  have : (some a, w, s) = ((none : Option α), w', s') := h
  simp at this

theorem esc_set (s t : σ) (E : σ → Prop) : (set s).Esc t E := by
  intro w w' s' h; simp [set] at h

theorem esc_user {s : σ} {E : σ → Prop} (h : E s) : (user : M σ Unit).Esc s E := by
  intro w w' s' hr
  unfold user at hr
  simp only at hr
  split at hr <;> simp at hr
  exact hr.2 ▸ h

theorem esc_ofRes {r : Res α} {s : σ} {E : σ → Prop} (h : E s) : (ofRes r : M σ α).Esc s E := by
  cases r with
  | ok a => exact esc_pure a s E
  | panic => intro w w' s' hr; simp [ofRes, fail] at hr; exact hr.2 ▸ h

theorem esc_bind {m : M σ α} {f : α → M σ β} {s : σ} {E : σ → Prop} (h : m.Esc s E)
    (hf : ∀ a s', m.res s = .ok (a, s') → (f a).Esc s' E) : (m >>= f).Esc s E := by
  intro w w' s' hr
  have hr : (M.bind m f).run w s = (none, w', s') := hr
  simp only [M.bind] at hr
  split at hr
  · rename_i a w1 s1 h1
    exact hf a s1 (res_of_run h1) _ _ _ hr
  · rename_i w1 s1 h1
    simp at hr
    exact hr.2 ▸ h _ _ _ h1

theorem esc_withState {f : σ → M σ α} {s : σ} {E : σ → Prop} (h : (f s).Esc s E) :
    (withState f).Esc s E := h

theorem esc_sort {E : Type} {srt : Sorter E} {left : Nat → List E → List E} {l : List E}
    {P : List E → Prop} (h : ∀ n, P (left n l)) : (sort srt left).Esc l P := by
  intro w w' s' hr
  unfold sort at hr
  simp only at hr
  split at hr <;> simp at hr
  exact hr.2 ▸ h _

theorem esc_zoom {get : τ → σ} {put : σ → τ → τ} {m : M σ α} {t : τ} {E : τ → Prop}
    (h : m.Esc (get t) fun s => E (put s t)) : (zoom get put m).Esc t E := by
  intro w w' s' hr
  rcases h1 : m.run w (get t) with ⟨o, w1, s1⟩
  simp [zoom, h1] at hr
  obtain ⟨rfl, rfl, rfl⟩ := hr
  exact h _ _ _ h1

theorem esc_fst {m : M σ α} {s : σ × τ} {E : σ × τ → Prop} (h : m.Esc s.1 fun c => E (c, s.2)) :
    (fst m).Esc s E := esc_zoom h
theorem esc_snd {m : M τ α} {s : σ × τ} {E : σ × τ → Prop} (h : m.Esc s.2 fun c => E (s.1, c)) :
    (snd m).Esc s E := esc_zoom h

theorem esc_head {m : M σ α} {c : σ} {cs : List σ} {E : List σ → Prop}
    (h : m.Esc c fun c' => E (c' :: cs)) : (head m).Esc (c :: cs) E := by
  intro w w' s' hr
  rcases h1 : m.run w c with ⟨o, w1, s1⟩
  simp [head, h1] at hr
  obtain ⟨rfl, rfl, rfl⟩ := hr
  exact h _ _ _ h1

theorem esc_tail {m : M (List σ) α} {c : σ} {cs : List σ} {E : List σ → Prop}
    (h : m.Esc cs fun cs' => E (c :: cs')) : (tail m).Esc (c :: cs) E := by
  intro w w' s' hr
  rcases h1 : m.run w cs with ⟨o, w1, s1⟩
  simp [tail, h1] at hr
  obtain ⟨rfl, rfl, rfl⟩ := hr
  exact h _ _ _ h1

theorem esc_atIndex {i : Nat} {m : M σ α} {l : List σ} {E : List σ → Prop} (h0 : E l)
    (h : ∀ c, l[i]? = some c → m.Esc c fun c' => E (l.set i c')) : (atIndex i m).Esc l E := by
  intro w w' s' hr
  cases hc : l[i]? with
  | none => simp [atIndex, hc] at hr; exact hr.2 ▸ h0
  | some c =>
    rcases h1 : m.run w c with ⟨o, w1, s1⟩
    simp [atIndex, hc, h1] at hr
    obtain ⟨rfl, rfl, rfl⟩ := hr
    exact h c hc _ _ _ h1

theorem esc_onLocal {m : M τ α} {t : τ} {s : σ} {E : σ → Prop} (h : E s) :
    (onLocal m t : M σ _).Esc s E := by
  intro w w' s' hr
  rcases h1 : m.run w t with ⟨o, w1, s1⟩
  cases o with
  | none => simp [onLocal, h1] at hr; exact hr.2 ▸ h
  | some a => simp [onLocal, h1] at hr

theorem esc_sigma {ι : Type} {S : ι → Type} {m : ∀ i, M (S i) α} {s : Σ i, S i} {E : (Σ i, S i) → Prop}
    (h : (m s.1).Esc s.2 fun c => E ⟨s.1, c⟩) : (sigma m).Esc s E := by
  intro w w' s' hr
  rcases h1 : (m s.1).run w s.2 with ⟨o, w1, s1⟩
  simp [sigma, h1] at hr
  obtain ⟨rfl, rfl, rfl⟩ := hr
  exact h _ _ _ h1

end M

variable {K V : Type}

/-- The methods are the ones of the model of `B` when the functions of the user return. -/
structure Agrees (B : Block K V) (U : Unwinding B.State K V) : Prop where
  contains : ∀ s k, (U.contains k).res s = B.contains s k
  take : ∀ s k, (U.take k).res s = B.take s k
  takeMultiple : ∀ s ks, (U.takeMultiple ks).res s = (B.takeMultiple s ks >>= fun r => .ok ((r.1, r.2.1), r.2.2))
  pop : ∀ s n, (U.pop n).res s = B.pop s n
  push : ∀ s l, (U.push l).res s = B.push s l
  flush : ∀ s, U.flush.res s = B.flush s

/-! ## Agreement -/

section Agreement

variable {B : Block K V}

theorem arrayPop_agrees (sz : K × V → Nat) (srt : Sorter (K × V)) (left) (n : Nat) (a : Array K V) :
    (arrayPop sz srt left n).res a = a.pop sz srt n := by
  unfold arrayPop Array.pop
  simp only [res_withState]
  split
  · rfl
  · split
    · rfl
    · simp only [res_bind, res_zoom, res_sort, Res.ok_bind, res_user, res_ofRes, res_set, res_pure]
      cases h : Res.sub a.totalSize (findCutAtSize sz n (srt.run a.values)).2.1 <;> simp

theorem arrayPush_agrees (sz : K × V → Nat) (srt srtS : Sorter (K × V)) (left) (l : List (K × V))
    (a : Array K V) : (arrayPush sz srt srtS left l).res a = a.push sz srt srtS l := by
  unfold arrayPush Array.push
  simp only [res_withState, res_bind, res_user, Res.ok_bind, res_ofRes]
  cases hr : Res.sub a.capacity a.totalSize with
  | panic => rfl
  | ok room =>
    simp only [Res.ok_bind]
    split
    · rfl
    · split
      · rfl
      · split
        · simp only [res_bind, res_user, res_ofRes, res_set, res_pure, Res.ok_bind]
          cases h : Res.sub (total sz l) (findCutAtSize sz (total sz l - a.capacity) (srtS.run l)).2.1 <;> simp
        · simp only [res_bind, arrayPop_agrees]
          cases h : a.pop sz srt (total sz l - room) with
          | panic => rfl
          | ok p => rfl

theorem arrayTakeLoop_agrees [LinearOrder K] (sz : K × V → Nat) :
    ∀ (i : Nat) (keys : List K) (ret : List (K × V)) (a : Array K V),
      (arrayTakeLoop sz i keys ret).res a =
        (Array.takeMultipleLoop sz i a keys ret >>= fun r => .ok ((r.1, r.2.1), r.2.2)) := by
  intro i
  induction i with
  | zero => intro keys ret a; rfl
  | succ i ih =>
    intro keys ret a
    simp only [arrayTakeLoop, Array.takeMultipleLoop, res_withState, res_bind, res_ofRes]
    cases he : a.values[i]? with
    | none => rfl
    | some e =>
      simp only [Res.unwrap_some, Res.ok_bind, res_user]
      cases hb : bsearch keys e.1 with
      | none => simp only [ih]
      | some j =>
        simp only [res_bind, res_user, Res.ok_bind, res_ofRes]
        cases hs : Res.sub a.totalSize (sz e) with
        | panic => rfl
        | ok t => simp only [Res.ok_bind, res_set, ih]

theorem arrayTake_agrees [DecidableEq K] (sz : K × V → Nat) (k : K) (a : Array K V) :
    (arrayTake sz k).res a = a.take sz k := by
  unfold arrayTake Array.take
  simp only [res_withState, res_bind, res_user, Res.ok_bind]
  cases hf : findKey a.values k with
  | none => rfl
  | some i =>
    simp only [res_bind, res_ofRes]
    cases hu : Res.unwrap a.values[i]? with
    | panic => rfl
    | ok e =>
      simp only [Res.ok_bind, res_user]
      cases hs : Res.sub a.totalSize (sz e) with
      | panic => rfl
      | ok t => rfl

theorem arrayTakeMultiple_agrees [LinearOrder K] (sz : K × V → Nat) (ks : List K) (a : Array K V) :
    (arrayTakeMultiple sz ks).res a =
      (a.takeMultiple sz ks >>= fun r => .ok ((r.1, r.2.1), r.2.2)) := by
  simp only [arrayTakeMultiple, res_withState, res_bind, res_user, Res.ok_bind, arrayTakeLoop_agrees,
    Array.takeMultiple]

theorem array_agrees [LinearOrder K] (sz : K × V → Nat) (srt srtS : Sorter (K × V)) (left) :
    Agrees (arrayBlock sz srt srtS) (array sz srt srtS left) where
  contains s k := rfl
  take s k := arrayTake_agrees sz k s
  takeMultiple s ks := arrayTakeMultiple_agrees sz ks s
  pop s n := arrayPop_agrees sz srt left n s
  push s l := arrayPush_agrees sz srt srtS left l s
  flush s := rfl

theorem exclusive_agrees [LinearOrder K] {F B : Block K V} {UF : Unwinding F.State K V}
    {UB : Unwinding B.State K V} (hF : Agrees F UF) (hB : Agrees B UB) :
    Agrees (Byoc.exclusive F B) (exclusive F B UF UB) where
  contains (s : F.State × B.State) k := by
    show M.res (σ := F.State × B.State) _ s = (Byoc.exclusive F B).contains s k
    simp only [exclusive, Byoc.exclusive, res_bind, res_fst', hF.contains]
    cases h : F.contains s.1 k with
    | panic => rfl
    | ok p =>
      obtain ⟨b, f⟩ := p
      cases b
      · simp only [Res.ok_bind, Bool.false_eq_true, if_false, res_snd', hB.contains]
        cases h : B.contains s.2 k <;> rfl
      · rfl
  take (s : F.State × B.State) k := by
    show M.res (σ := F.State × B.State) _ s = (Byoc.exclusive F B).take s k
    simp only [exclusive, Byoc.exclusive, res_bind, res_fst', hF.take]
    cases h : F.take s.1 k with
    | panic => rfl
    | ok p =>
      obtain ⟨o, f⟩ := p
      cases o
      · simp only [Res.ok_bind, res_snd', hB.take]
        cases h : B.take s.2 k <;> rfl
      · rfl
  takeMultiple (s : F.State × B.State) ks := by
    show M.res (σ := F.State × B.State) _ s = ((Byoc.exclusive F B).takeMultiple s ks >>= _)
    simp only [exclusive, Byoc.exclusive, res_bind, res_user, res_fst', Res.ok_bind, hF.takeMultiple]
    cases h : F.takeMultiple s.1 (sortKeys ks) with
    | panic => rfl
    | ok p =>
      simp only [Res.ok_bind, res_bind, res_user, res_snd', hB.takeMultiple]
      cases h2 : B.takeMultiple s.2 ((p.1.map Prod.fst).foldl removeFound p.2.1) with
      | panic => rfl
      | ok q => rfl
  pop (s : F.State × B.State) n := by
    show M.res (σ := F.State × B.State) _ s = (Byoc.exclusive F B).pop s n
    simp only [exclusive, Byoc.exclusive, res_withState, res_bind, res_snd', hB.pop]
    cases h : B.pop s.2 n with
    | panic => rfl
    | ok p =>
      simp only [Res.ok_bind, res_withState, res_bind, res_ofRes]
      cases hs : Res.sub (B.size s.2) (B.size p.2) with
      | panic => rfl
      | ok d =>
        simp only [Res.ok_bind]
        split
        · simp only [res_bind, res_fst', hF.pop]
          cases hp : F.pop s.1 (n - d) <;> rfl
        · rfl
  push (s : F.State × B.State) l := by
    show M.res (σ := F.State × B.State) _ s = (Byoc.exclusive F B).push s l
    simp only [exclusive, Byoc.exclusive, res_bind, res_fst', hF.push]
    cases h : F.push s.1 l with
    | panic => rfl
    | ok p =>
      simp only [Res.ok_bind, res_snd', hB.push]
      cases hp : B.push s.2 p.1 <;> rfl
  flush (s : F.State × B.State) := by
    show M.res (σ := F.State × B.State) _ s = (Byoc.exclusive F B).flush s
    simp only [exclusive, Byoc.exclusive, res_bind, res_snd', hB.flush]
    cases h : B.flush s.2 with
    | panic => rfl
    | ok p =>
      simp only [Res.ok_bind, res_bind, res_fst', hF.flush]
      cases h : F.flush s.1 with
      | panic => rfl
      | ok q =>
        simp only [Res.ok_bind, res_bind, res_snd', hB.push]
        cases h : B.push p.2 q.1 with
        | panic => rfl
        | ok r =>
          simp only [Res.ok_bind, res_bind, res_snd', hB.flush]
          cases h : B.flush r.2 <;> rfl

section
variable {C : Block K V} {U : Unwinding C.State K V} (h : Agrees C U)
include h

theorem batchContains_agrees (k : K) : ∀ s : List C.State,
    (batchContains C U k s).res s = Batch.contains C s k := by
  intro s
  induction s with
  | nil => rfl
  | cons c cs ih =>
    simp only [batchContains, Batch.contains, res_bind, res_head, h.contains]
    cases hc : C.contains c k with
    | panic => rfl
    | ok p =>
      obtain ⟨b, c'⟩ := p
      cases b
      · simp only [Res.ok_bind, Bool.false_eq_true, if_false, res_tail, ih]
        rfl
      · rfl

theorem batchTake_agrees (k : K) : ∀ s : List C.State,
    (batchTake C U k s).res s = Batch.take C s k := by
  intro s
  induction s with
  | nil => rfl
  | cons c cs ih =>
    simp only [batchTake, Batch.take, res_bind, res_head, h.take]
    cases hc : C.take c k with
    | panic => rfl
    | ok p =>
      obtain ⟨o, c'⟩ := p
      cases o
      · simp only [Res.ok_bind, res_tail, ih]
        rfl
      · rfl

theorem batchTakeMultiple_agrees : ∀ (s : List C.State) (ks : List K),
    (batchTakeMultiple C U s ks).res s =
      (Batch.takeMultiple C s ks >>= fun r => .ok ((r.1, r.2.1), r.2.2)) := by
  intro s
  induction s with
  | nil => intro ks; rfl
  | cons c cs ih =>
    intro ks
    cases ks with
    | nil => rfl
    | cons k ks =>
      simp only [batchTakeMultiple, Batch.takeMultiple, res_bind, res_head, h.takeMultiple]
      cases hc : C.takeMultiple c (k :: ks) with
      | panic => rfl
      | ok p =>
        simp only [Res.ok_bind, res_bind, res_tail, ih]
        cases hc : Batch.takeMultiple C cs p.2.1 <;> rfl

theorem batchPopLoop_agrees : ∀ (s : List C.State) (n : Nat),
    (batchPopLoop C U s n).res s = Batch.popLoop C s n := by
  intro s
  induction s with
  | nil => intro n; rfl
  | cons c cs ih =>
    intro n
    simp only [batchPopLoop, Batch.popLoop, res_bind, res_head, h.pop]
    cases hc : C.pop c n with
    | panic => rfl
    | ok p =>
      simp only [Res.ok_bind, res_withState, res_bind, res_ofRes]
      cases hs : Res.sub (C.size c) (C.size p.2) with
      | panic => rfl
      | ok d =>
        simp only [Res.ok_bind, res_pure]
        split
        · rfl
        · simp only [res_bind, res_tail, ih]
          cases hc : Batch.popLoop C cs (n - d) <;> rfl

theorem batchPushLoop_agrees : ∀ (s used : List C.State) (l : List (K × V)) (s0 : List C.State),
    (batchPushLoop C U s used l).res s0 =
      (Batch.pushLoop C s l >>= fun r => .ok (r.1, r.2.1 ++ (used ++ r.2.2))) := by
  intro s
  induction s with
  | nil =>
    intro used l s0
    cases l <;> simp [batchPushLoop, Batch.pushLoop, res_bind]
  | cons c cs ih =>
    intro used l s0
    cases l with
    | nil => simp [batchPushLoop, Batch.pushLoop, res_bind]
    | cons v vs =>
      simp only [batchPushLoop, Batch.pushLoop, res_bind, res_set, Res.ok_bind, res_onLocal, h.push]
      cases hc : C.push c (v :: vs) with
      | panic => rfl
      | ok p =>
        simp only [Res.ok_bind, ih]
        cases hp : Batch.pushLoop C cs p.1 <;> simp

theorem batchFlush_agrees : ∀ s : List C.State, (batchFlush C U s).res s = Batch.flush C s := by
  intro s
  induction s with
  | nil => rfl
  | cons c cs ih =>
    simp only [batchFlush, Batch.flush, res_bind, res_head, h.flush]
    cases hc : C.flush c with
    | panic => rfl
    | ok p =>
      simp only [Res.ok_bind, res_bind, res_tail, ih]
      cases hc : Batch.flush C cs <;> rfl

theorem batch_agrees : Agrees (Byoc.batch C) (batch C U) where
  contains s k := batchContains_agrees h k s
  take s k := batchTake_agrees h k s
  takeMultiple s ks := batchTakeMultiple_agrees h s ks
  pop (s : List C.State) n := by
    show M.res (σ := List C.State) (withState _) s = Batch.pop C s n
    simp only [res_withState, res_zoom, batchPopLoop_agrees h, Batch.pop]
    cases hc : Batch.popLoop C s.reverse n <;> rfl
  push (s : List C.State) l := by
    show M.res (σ := List C.State) (withState _) s = Batch.push C s l
    simp only [res_withState, batchPushLoop_agrees h, Batch.push]
    cases hc : Batch.pushLoop C s l <;> simp
  flush s := batchFlush_agrees h s

theorem flushStopper_agrees : Agrees (Byoc.flushStopper C) (flushStopper (S := C.State) U) where
  contains := h.contains
  take := h.take
  takeMultiple := h.takeMultiple
  pop := h.pop
  push := h.push
  flush _ := rfl

theorem defaultTakeMultiple_agrees : ∀ (ks : List K) (s : C.State),
    (defaultTakeMultiple U.take ks).res s = Byoc.defaultTakeMultiple C.take s ks := by
  intro ks
  induction ks with
  | nil => intro s; rfl
  | cons k ks ih =>
    intro s
    simp only [defaultTakeMultiple, Byoc.defaultTakeMultiple, res_bind, h.take]
    cases hc : C.take s k with
    | panic => rfl
    | ok p =>
      obtain ⟨o, s1⟩ := p
      simp only [Res.ok_bind, ih]
      cases hd : Byoc.defaultTakeMultiple C.take s1 ks with
      | panic => rfl
      | ok q => cases o <;> rfl

theorem viaDefault_agrees : Agrees (Byoc.viaDefault C) (viaDefault (S := C.State) U) where
  contains := h.contains
  take := h.take
  takeMultiple (s : C.State) ks := by
    show M.res (σ := C.State) _ s = ((Byoc.viaDefault C).takeMultiple s ks >>= _)
    simp only [viaDefault, Byoc.viaDefault, res_bind, defaultTakeMultiple_agrees h]
    cases hc : Byoc.defaultTakeMultiple C.take s ks <;> rfl
  pop := h.pop
  push := h.push
  flush := h.flush

theorem profiler_agrees : Agrees (Byoc.profiler C) (profiler C U) where
  contains (s : C.State × Stats) k := by
    show M.res (σ := C.State × Stats) _ s = (Byoc.profiler C).contains s k
    simp only [profiler, Byoc.profiler, res_bind, res_fst', h.contains]
    cases hc : C.contains s.1 k <;> rfl
  take (s : C.State × Stats) k := by
    show M.res (σ := C.State × Stats) _ s = (Byoc.profiler C).take s k
    simp only [profiler, Byoc.profiler, res_withState, res_bind, res_fst', h.take]
    cases hc : C.take s.1 k <;> rfl
  takeMultiple (s : C.State × Stats) ks := by
    show M.res (σ := C.State × Stats) _ s = ((Byoc.profiler C).takeMultiple s ks >>= _)
    simp only [profiler, Byoc.profiler, res_withState, res_bind, res_fst', h.takeMultiple]
    cases hc : C.takeMultiple s.1 ks with
    | panic => rfl
    | ok p =>
      simp only [Res.ok_bind, res_withState, res_bind, res_ofRes]
      cases hs : Res.sub ks.length p.1.length <;> rfl
  pop (s : C.State × Stats) n := by
    show M.res (σ := C.State × Stats) _ s = (Byoc.profiler C).pop s n
    simp only [profiler, Byoc.profiler, res_withState, res_bind, res_fst', h.pop]
    cases hc : C.pop s.1 n with
    | panic => rfl
    | ok p =>
      simp only [Res.ok_bind, res_withState, res_bind, res_ofRes]
      cases hs : Res.sub (C.size s.1) (C.size p.2) <;> rfl
  push (s : C.State × Stats) l := by
    show M.res (σ := C.State × Stats) _ s = (Byoc.profiler C).push s l
    simp only [profiler, Byoc.profiler, res_withState, res_bind, res_fst', h.push]
    cases hc : C.push s.1 l <;> rfl
  flush (s : C.State × Stats) := by
    show M.res (σ := C.State × Stats) _ s = (Byoc.profiler C).flush s
    simp only [profiler, Byoc.profiler, res_withState, res_bind, res_fst', h.flush]
    cases hc : C.flush s.1 <;> rfl

theorem assocTakeLoop_agrees : ∀ (s : List C.State) (g : List (List K)),
    (assocTakeLoop C U s g).res s =
      (Associative.takeMultipleLoop C s g >>= fun r => .ok ((r.1, r.2.1), r.2.2)) := by
  intro s
  induction s with
  | nil => intro g; cases g <;> rfl
  | cons c cs ih =>
    intro g
    cases g with
    | nil => rfl
    | cons g gs =>
      simp only [assocTakeLoop, Associative.takeMultipleLoop]
      split
      · simp only [res_tail, ih]
        cases hc : Associative.takeMultipleLoop C cs gs <;> rfl
      · simp only [res_bind, res_head, h.takeMultiple]
        cases hc : C.takeMultiple c g with
        | panic => rfl
        | ok p =>
          simp only [Res.ok_bind, res_bind, res_tail, ih]
          cases hc : Associative.takeMultipleLoop C cs gs <;> rfl

theorem assocPushLoop_agrees : ∀ (s : List C.State) (g : List (List (K × V))),
    (assocPushLoop C U s g).res s = Associative.pushLoop C s g := by
  intro s
  induction s with
  | nil => intro g; cases g <;> rfl
  | cons c cs ih =>
    intro g
    cases g with
    | nil => rfl
    | cons g gs =>
      simp only [assocPushLoop, Associative.pushLoop, res_bind, res_head, h.push]
      cases hc : C.push c g with
      | panic => rfl
      | ok p =>
        simp only [Res.ok_bind, res_bind, res_tail, ih]
        cases hc : Associative.pushLoop C cs gs <;> rfl

theorem assocPopLoop_agrees (target : Nat) : ∀ (bs : List (Nat × Nat)) (s : List C.State),
    (assocPopLoop C U target bs).res s = Associative.popLoop C target bs s := by
  intro bs
  induction bs with
  | nil => intro s; rfl
  | cons b bs ih =>
    intro s
    simp only [assocPopLoop, Associative.popLoop, res_bind, res_atIndex]
    cases hu : Res.unwrap s[b.2]? with
    | panic => rfl
    | ok c =>
      simp only [Res.ok_bind, res_ofRes]
      cases hs : Res.sub b.1 target with
      | panic => rfl
      | ok d =>
        simp only [Res.ok_bind, h.pop]
        cases hc : C.pop c d with
        | panic => rfl
        | ok p =>
          simp only [Res.ok_bind, ih]
          cases hc : Associative.popLoop C target bs (s.set b.2 p.2) <;> rfl

theorem associative_agrees (hash : K → Nat) : Agrees (Byoc.associative hash C) (associative C U hash) where
  contains (s : List C.State) k := by
    show M.res (σ := List C.State) (withState _) s = (Byoc.associative hash C).contains s k
    simp only [Byoc.associative, res_withState, res_bind, res_user, Res.ok_bind, res_ofRes]
    cases hs : Associative.set hash s.length k with
    | panic => rfl
    | ok i =>
      simp only [Res.ok_bind, res_atIndex, h.contains]
      rfl
  take (s : List C.State) k := by
    show M.res (σ := List C.State) (withState _) s = (Byoc.associative hash C).take s k
    simp only [Byoc.associative, res_withState, res_bind, res_user, Res.ok_bind, res_ofRes]
    cases hs : Associative.set hash s.length k with
    | panic => rfl
    | ok i =>
      simp only [Res.ok_bind, res_atIndex, h.take]
      rfl
  takeMultiple (s : List C.State) ks := by
    show M.res (σ := List C.State) (withState _) s = (Associative.takeMultiple hash C s ks >>= _)
    simp only [Associative.takeMultiple, res_withState, res_bind, res_user, Res.ok_bind, res_ofRes]
    cases hs : Associative.distribute hash id s.length ks (List.replicate s.length []) with
    | panic => rfl
    | ok g => simp only [Res.ok_bind, assocTakeLoop_agrees h]; rfl
  pop (s : List C.State) n := by
    show M.res (σ := List C.State) (withState _) s = Associative.pop C s n
    simp only [Associative.pop, res_withState]
    split
    · rfl
    · split
      · exact batchFlush_agrees h s
      · simp only [res_bind, res_ofRes]
        cases ht : Associative.targetLoop n ((List.range s.length).zip (s.map C.size)) (s.map C.size).sum with
        | panic => rfl
        | ok r => simp only [Res.ok_bind, assocPopLoop_agrees h]
  push (s : List C.State) l := by
    show M.res (σ := List C.State) (withState _) s = Associative.push hash C s l
    simp only [Associative.push, res_withState, res_bind, res_user, Res.ok_bind, res_ofRes]
    cases hs : Associative.distribute hash Prod.fst s.length l (List.replicate s.length []) with
    | panic => rfl
    | ok g => simp only [Res.ok_bind, assocPushLoop_agrees h]
  flush s := batchFlush_agrees h s

end

theorem anyOf_agrees {ι : Type} {B : ι → Block K V} {U : ∀ i, Unwinding (B i).State K V} (h : ∀ i, Agrees (B i) (U i)) :
    Agrees (Byoc.anyOf B) (anyOf (S := fun i => (B i).State) U) where
  contains (s : Σ i, (B i).State) k := by
    show M.res (σ := Σ i, (B i).State) (sigma fun i => (U i).contains k) s = (Byoc.anyOf B).contains s k
    simp only [Byoc.anyOf, res_sigma, (h _).contains]; rfl
  take (s : Σ i, (B i).State) k := by
    show M.res (σ := Σ i, (B i).State) (sigma fun i => (U i).take k) s = (Byoc.anyOf B).take s k
    simp only [Byoc.anyOf, res_sigma, (h _).take]; rfl
  takeMultiple (s : Σ i, (B i).State) ks := by
    show M.res (σ := Σ i, (B i).State) (sigma fun i => (U i).takeMultiple ks) s = ((Byoc.anyOf B).takeMultiple s ks >>= _)
    simp only [Byoc.anyOf, res_sigma, (h _).takeMultiple]
    cases hc : (B s.1).takeMultiple s.2 ks <;> rfl
  pop (s : Σ i, (B i).State) n := by
    show M.res (σ := Σ i, (B i).State) (sigma fun i => (U i).pop n) s = (Byoc.anyOf B).pop s n
    simp only [Byoc.anyOf, res_sigma, (h _).pop]; rfl
  push (s : Σ i, (B i).State) l := by
    show M.res (σ := Σ i, (B i).State) (sigma fun i => (U i).push l) s = (Byoc.anyOf B).push s l
    simp only [Byoc.anyOf, res_sigma, (h _).push]; rfl
  flush (s : Σ i, (B i).State) := by
    show M.res (σ := Σ i, (B i).State) (sigma fun i => (U i).flush) s = (Byoc.anyOf B).flush s
    simp only [Byoc.anyOf, res_sigma, (h _).flush]; rfl

theorem decorator_agrees (D : Decoration V) {C : Block K D.Item} {U : Unwinding C.State K D.Item} (h : Agrees C U) :
    Agrees (Byoc.decorator D C) (decorator D (S := C.State) U) where
  contains (s : C.State × D.Factory) k := by
    show M.res (σ := C.State × D.Factory) (fst _) s = (Byoc.decorator D C).contains s k
    simp only [Byoc.decorator, res_fst', h.contains]; rfl
  take (s : C.State × D.Factory) k := by
    show M.res (σ := C.State × D.Factory) _ s = (Byoc.decorator D C).take s k
    simp only [decorator, Byoc.decorator, res_bind, res_fst', h.take]
    cases hc : C.take s.1 k <;> rfl
  takeMultiple (s : C.State × D.Factory) ks := by
    show M.res (σ := C.State × D.Factory) _ s = ((Byoc.decorator D C).takeMultiple s ks >>= _)
    simp only [decorator, Byoc.decorator, res_bind, res_fst', h.takeMultiple]
    cases hc : C.takeMultiple s.1 ks <;> rfl
  pop (s : C.State × D.Factory) n := by
    show M.res (σ := C.State × D.Factory) _ s = (Byoc.decorator D C).pop s n
    simp only [decorator, Byoc.decorator, res_bind, res_fst', h.pop]
    cases hc : C.pop s.1 n <;> rfl
  push (s : C.State × D.Factory) l := by
    show M.res (σ := C.State × D.Factory) _ s = (Byoc.decorator D C).push s l
    simp only [decorator, Byoc.decorator, res_withState, res_bind, res_set, Res.ok_bind, res_fst', h.push]
    cases hc : C.push s.1 (wrapAll D s.2 l).1 <;> rfl
  flush (s : C.State × D.Factory) := by
    show M.res (σ := C.State × D.Factory) _ s = (Byoc.decorator D C).flush s
    simp only [decorator, Byoc.decorator, res_bind, res_fst', h.flush]
    cases hc : C.flush s.1 <;> rfl

theorem stack_agrees [LinearOrder K] (left : (W : Type) → Nat → List (K × W) → List (K × W)) {V : Type}
    (t : Stack K V) : Agrees t.block (stack left t) := by
  induction t with
  | array sz srt srtS => exact array_agrees sz srt srtS _
  | exclusive f b ihf ihb => exact exclusive_agrees ihf ihb
  | batch c ih => exact batch_agrees ih
  | associative hash c ih => exact associative_agrees ih hash
  | flushStopper c ih => exact flushStopper_agrees ih
  | sequential c ih => exact ih
  | dyn ι c ih => exact viaDefault_agrees (anyOf_agrees ih)
  | decorator D A c ih => exact decorator_agrees D ih
  | profiler c ih => exact profiler_agrees ih

end Agreement

end Byoc.Unwind
