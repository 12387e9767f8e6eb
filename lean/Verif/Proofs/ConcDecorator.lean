import Verif.Model.ConcDecorator
import Verif.Proofs.ConcAssoc
import Verif.Proofs.Policies

/-!
# Proofs about a `Decorator` shared by several threads
-/

namespace Byoc.Shared

variable {K V : Type}

/-! ## Specification -/

/-- The elements given to `push` in calls made so far. -/
def pushedIn (l : List (Ev K V)) : List (K × V) := l.flatMap fun
  | .called _ o => o.given
  | _ => []

/-- The elements given to the calls of `push` that returned. -/
def pushedDone (l : List (Ev K V)) : List (K × V) := l.flatMap fun
  | .returned _ o _ => o.given
  | _ => []

/-- The elements handed back by the calls. -/
def backIn (l : List (Ev K V)) : List (K × V) := l.flatMap fun
  | .executed _ _ r => r.elements
  | .took _ _ r => r.toList
  | _ => []

/-- The `push` of `y` returned before the `push` of `x` was called. -/
def Earlier (l : List (Ev K V)) (y x : K × V) : Prop :=
  ∃ a b c i j ly lx r, l = a ++ .returned i (.push ly) r :: b ++ .called j (.push lx) :: c ∧ y ∈ ly ∧ x ∈ lx

/-- The elements of a `push` in progress that are not in the container yet. -/
def Pc.flying {I : Type} : Pc K V I → List (K × V)
  | .wrap l _ _ => l
  | .ready o _ => o.given
  | _ => []

/-! ## Steps -/

variable {D : Decoration V} {C : Block K D.Item}

inductive Step (s : State D C) (i : Nat) : State D C → Ev K V → Prop where
  | push {l} (h : s.threads[i]? = some .idle) :
      Step s i ⟨s.cont, s.fac, s.threads.set i (.wrap l l [])⟩ (.called i (.push l))
  | call {o d} (h : s.threads[i]? = some .idle) (ho : forward o = some d) :
      Step s i ⟨s.cont, s.fac, s.threads.set i (.ready o d)⟩ (.called i o)
  | takes {ks} (h : s.threads[i]? = some .idle) :
      Step s i ⟨s.cont, s.fac, s.threads.set i (.taking ks ks [])⟩ (.called i (.takeMultiple ks))
  | take {ks k todo out r c} (h : s.threads[i]? = some (.taking ks (k :: todo) out))
      (hp : C.take s.cont k = .ok (r, c)) :
      Step s i ⟨c, s.fac, s.threads.set i (.taking ks todo (out ++ (r.map (strip D)).toList))⟩
        (.took i k (r.map (strip D)))
  | takePanic {ks k todo out} (h : s.threads[i]? = some (.taking ks (k :: todo) out))
      (hp : C.take s.cont k = .panic) :
      Step s i ⟨s.cont, s.fac, s.threads.set i .dead⟩ (.panicked i)
  | taken {ks out} (h : s.threads[i]? = some (.taking ks [] out)) :
      Step s i ⟨s.cont, s.fac, s.threads.set i (.ret (.takeMultiple ks) (.keyed out ks))⟩ (.silent i)
  | wrap {l k v todo done} (h : s.threads[i]? = some (.wrap l ((k, v) :: todo) done)) :
      Step s i ⟨s.cont, (D.wrap s.fac v).2, s.threads.set i (.wrap l todo (done ++ [(k, (D.wrap s.fac v).1)]))⟩
        (.silent i)
  | wrapped {l done} (h : s.threads[i]? = some (.wrap l [] done)) :
      Step s i ⟨s.cont, s.fac, s.threads.set i (.ready (.push l) (.push done))⟩ (.silent i)
  | panic {o d} (h : s.threads[i]? = some (.ready o d)) (hp : C.observe s.cont d = .panic) :
      Step s i ⟨s.cont, s.fac, s.threads.set i .dead⟩ (.panicked i)
  | exec {o d r c} (h : s.threads[i]? = some (.ready o d)) (hp : C.observe s.cont d = .ok (r, c)) :
      Step s i ⟨c, s.fac, s.threads.set i (.ret o (bare D r))⟩ (.executed i o (bare D r))
  | clashT {ks k todo out} (h : s.threads[i]? = some (.taking ks (k :: todo) out))
      (hb : (s.threads.eraseIdx i).any Pc.busy = true) :
      Step s i ⟨s.cont, s.fac, s.threads.set i .dead⟩ (.panicked i)
  | clash {o d} (h : s.threads[i]? = some (.ready o d)) (hb : (s.threads.eraseIdx i).any Pc.busy = true) :
      Step s i ⟨s.cont, s.fac, s.threads.set i .dead⟩ (.panicked i)
  | skip {b d} (h : s.threads[i]? = some (.ready (.push b) d)) (hd : .dead ∈ s.threads) :
      Step s i ⟨s.cont, s.fac, s.threads.set i (.ret (.push b) (.many []))⟩ (.silent i)
  | ret {o r} (h : s.threads[i]? = some (.ret o r)) :
      Step s i ⟨s.cont, s.fac, s.threads.set i .idle⟩ (.returned i o r)

theorem step_sound {s s' : State D C} {i a e} (h : step s i a = some (s', e)) : Step s i s' e := by
  unfold step at h
  split at h
  · rename_i l ht
    cases h; exact .push ht
  · cases h; exact .takes (by assumption)
  · rename_i ht
    split at h
    · cases h; exact .call ht (by assumption)
    · cases h
  · cases h; exact .wrap (by assumption)
  · cases h; exact .wrapped (by assumption)
  · rename_i ht
    split at h
    · cases h; exact .takePanic ht (by assumption)
    · cases h; exact .take ht (by assumption)
  · cases h; exact .taken (by assumption)
  · rename_i ht
    split at h
    · cases h; exact .panic ht (by assumption)
    · cases h; exact .exec ht (by assumption)
  · rename_i ht
    split at h
    · cases h; exact .clashT ht (by assumption)
    · cases h
  · rename_i ht
    split at h
    · cases h; exact .clash ht (by assumption)
    · cases h
  · rename_i ht
    split at h
    · rename_i hd
      cases h
      obtain ⟨p, hp, hd⟩ := List.any_eq_true.1 hd
      cases p <;> simp [Pc.isDead] at hd
      exact .skip ht hp
    · cases h
  · cases h; exact .ret (by assumption)
  · cases h

/-- What a thread decorated so far is its batch. -/
def Pc.Ok (D : Decoration V) : Pc K V D.Item → Prop
  | .wrap l todo done => done.map (strip D) ++ todo = l
  | .ready o d => d.given.map (strip D) = o.given ∧
    (forward o = some d ∨ ∃ b b', o = .push b ∧ d = .push b')
  | _ => True

/-- The decorated elements a thread holds. -/
def Pc.items {I : Type} : Pc K V I → List (K × I)
  | .wrap _ _ done => done
  | .ready _ d => d.given
  | _ => []

theorem mem_set {α : Type} {l : List α} {i : Nat} {x y : α} (h : y ∈ l.set i x) : y ∈ l ∨ y = x := by
  rcases List.mem_or_eq_of_mem_set h with h | h
  · exact .inl h
  · exact .inr h

theorem bare_elements (D : Decoration V) (r : Obs K D.Item) :
    (bare D r).elements = r.elements.map (strip D) := by
  cases r with
  | bool => rfl
  | opt o => cases o <;> rfl
  | keyed => rfl
  | many => rfl

theorem forward_given {I : Type} {o : Op K V} {d : Op K I} (h : forward o = some d) : d.given = [] := by
  cases o <;> simp only [forward, Option.some.injEq, reduceCtorEq] at h <;> subst h <;> rfl

theorem given_nil {I : Type} {o : Op K V} {d : Op K I} (h : forward o = some d) : o.given = [] := by
  cases o <;> first | rfl | simp [forward] at h

theorem ok_step {s s' : State D C} {i e} (hD : ∀ f v, D.unwrap (D.wrap f v).1 = v) (h : Step s i s' e)
    (hs : ∀ p ∈ s.threads, p.Ok D) : ∀ p ∈ s'.threads, p.Ok D := by
  intro p hp
  cases h with
  | push h =>
    rcases mem_set hp with hp | rfl
    · exact hs p hp
    · simp [Pc.Ok]
  | call h ho =>
    rcases mem_set hp with hp | rfl
    · exact hs p hp
    · simp [Pc.Ok, forward_given ho, given_nil ho, ho]
  | takes h =>
    rcases mem_set hp with hp | rfl
    · exact hs p hp
    · trivial
  | take h =>
    rcases mem_set hp with hp | rfl
    · exact hs p hp
    · trivial
  | takePanic h =>
    rcases mem_set hp with hp | rfl
    · exact hs p hp
    · trivial
  | taken h =>
    rcases mem_set hp with hp | rfl
    · exact hs p hp
    · trivial
  | wrap h =>
    rcases mem_set hp with hp | rfl
    · exact hs p hp
    · have := hs _ (List.mem_of_getElem? h)
      simp only [Pc.Ok] at this ⊢
      rw [← this]
      simp [strip, hD]
  | wrapped h =>
    rcases mem_set hp with hp | rfl
    · exact hs p hp
    · have := hs _ (List.mem_of_getElem? h)
      exact ⟨by simpa [Pc.Ok, Op.given] using this, .inr ⟨_, _, rfl, rfl⟩⟩
  | panic h =>
    rcases mem_set hp with hp | rfl
    · exact hs p hp
    · trivial
  | exec h =>
    rcases mem_set hp with hp | rfl
    · exact hs p hp
    · trivial
  | clashT h =>
    rcases mem_set hp with hp | rfl
    · exact hs p hp
    · trivial
  | clash h =>
    rcases mem_set hp with hp | rfl
    · exact hs p hp
    · trivial
  | skip h =>
    rcases mem_set hp with hp | rfl
    · exact hs p hp
    · trivial
  | ret h =>
    rcases mem_set hp with hp | rfl
    · exact hs p hp
    · trivial

/-- The contract, for the results as the caller sees them. -/
theorem observe_lawful {B : Block K V} {I : B.State → Prop} {ec : B.State → List (K × V)}
    (hB : Lawful B I ec (fun _ => True)) {s : B.State} (hs : I s) (o : Op K V) :
    ∃ r s', B.observe s o = .ok (r, s') ∧ I s' ∧ B.capacity s' = B.capacity s ∧
      (ec s' ++ r.elements).Perm (ec s ++ o.given) := by
  obtain ⟨out, s', h1, h2, h3, h4⟩ := hB.step s hs o (by cases o <;> exact trivial)
  rw [Block.step_eq_observe] at h1
  cases h : B.observe s o with
  | panic => rw [h] at h1; cases h1
  | ok x =>
    obtain ⟨r, t⟩ := x
    rw [h] at h1
    simp only [Res.ok_bind, Res.pure_eq, Res.ok.injEq, Prod.mk.injEq] at h1
    obtain ⟨rfl, rfl⟩ := h1
    exact ⟨r, t, rfl, h2, h3, h4⟩

/-! ## Nothing is lost -/

structure CInv (I : C.State → Prop) (ec : C.State → List (K × D.Item)) (cap : Nat) (l : List (Ev K V))
    (s : State D C) : Prop where
  inv : I s.cont
  cap : C.capacity s.cont = cap
  ok : ∀ p ∈ s.threads, p.Ok D
  alive : .dead ∈ s.threads → ∃ i, .panicked i ∈ l
  bal : ∃ lost, ((ec s.cont).map (strip D) ++ (backIn l ++ s.threads.flatMap Pc.flying) ++ lost).Perm
    (pushedIn l) ∧ (lost ≠ [] → ∃ i, .panicked i ∈ l)

theorem flying_set {p q : Pc K V D.Item} {ts : List (Pc K V D.Item)} {i : Nat} (h : ts[i]? = some p) :
    (p.flying ++ (ts.set i q).flatMap Pc.flying).Perm (q.flying ++ ts.flatMap Pc.flying) := by
  obtain ⟨a, b, h1, h2⟩ := Assoc.flatMap_set Pc.flying q h
  rw [h1, h2]
  perms []

theorem cinv_step {I : C.State → Prop} {ec : C.State → List (K × D.Item)} {cap : Nat}
    (hC : Lawful C I ec (fun _ => True)) (hD : ∀ f v, D.unwrap (D.wrap f v).1 = v)
    {l : List (Ev K V)} {s s' : State D C} {i e} (hs : CInv I ec cap l s) (h : Step s i s' e) :
    CInv I ec cap (l ++ [e]) s' := by
  have hok := ok_step hD h hs.ok
  obtain ⟨lost, hb, hlost⟩ := hs.bal
  have later : ∀ {e : Ev K V}, (∃ j, .panicked j ∈ l) → ∃ j, .panicked j ∈ l ++ [e] :=
    fun ⟨j, h⟩ => ⟨j, List.mem_append_left _ h⟩
  have hlost' : ∀ {e : Ev K V}, lost ≠ [] → ∃ j, .panicked j ∈ l ++ [e] := fun h => later (hlost h)
  have halive : ∀ {q : Pc K V D.Item} {e : Ev K V}, q ≠ .dead → .dead ∈ s.threads.set i q →
      ∃ j, .panicked j ∈ l ++ [e] := by
    intro q e hq hp
    rcases mem_set hp with hp | hp
    · exact later (hs.alive hp)
    · exact absurd hp.symm hq
  cases h with
  | push h =>
    rename_i b
    refine ⟨hs.inv, hs.cap, hok, halive (by simp), lost, ?_, hlost'⟩
    have hf := flying_set (q := .wrap b b []) h
    simp only [backIn, pushedIn, List.flatMap_append, List.flatMap_cons, List.flatMap_nil, List.append_nil,
      Pc.flying, Op.given] at *
    perms [hb, hf]
  | takes h =>
    rename_i ks
    refine ⟨hs.inv, hs.cap, hok, halive (by simp), lost, ?_, hlost'⟩
    have hf := flying_set (q := .taking ks ks []) h
    simp only [backIn, pushedIn, List.flatMap_append, List.flatMap_cons, List.flatMap_nil, List.append_nil,
      Pc.flying, Op.given] at *
    perms [hb, hf]
  | take h hp =>
    rename_i ks k todo out r c
    obtain ⟨r', c', h1, h2, h3, h4⟩ := observe_lawful hC hs.inv (.take k)
    simp only [Block.observe, hp, Res.ok_bind, Res.pure_eq, Res.ok.injEq, Prod.mk.injEq] at h1
    obtain ⟨rfl, rfl⟩ := h1
    refine ⟨h2, h3.trans hs.cap, hok, halive (by simp), lost, ?_, hlost'⟩
    have hf := flying_set (q := .taking ks todo (out ++ (r.map (strip D)).toList)) h
    have h5 := h4.map (strip D)
    have e1 : (r.map (strip D)).toList = r.toList.map (strip D) := by cases r <;> rfl
    simp only [backIn, pushedIn, List.flatMap_append, List.flatMap_cons, List.flatMap_nil, List.append_nil,
      Pc.flying, List.map_append, Obs.elements, Op.given, e1] at *
    perms [hb, hf, h5]
  | takePanic h hp =>
    rename_i ks k todo out
    obtain ⟨r, c, h1, -⟩ := observe_lawful hC hs.inv (.take k)
    simp only [Block.observe, hp] at h1
    cases h1
  | taken h =>
    rename_i ks out
    refine ⟨hs.inv, hs.cap, hok, halive (by simp), lost, ?_, hlost'⟩
    have hf := flying_set (q := .ret (.takeMultiple ks) (.keyed out ks)) h
    simp only [backIn, pushedIn, List.flatMap_append, List.flatMap_cons, List.flatMap_nil, List.append_nil,
      Pc.flying] at *
    perms [hb, hf]
  | call h ho =>
    rename_i o d
    refine ⟨hs.inv, hs.cap, hok, halive (by simp), lost, ?_, hlost'⟩
    have hf := flying_set (q := .ready o d) h
    simp only [backIn, pushedIn, List.flatMap_append, List.flatMap_cons, List.flatMap_nil, List.append_nil,
      Pc.flying, given_nil ho] at *
    perms [hb, hf]
  | wrap h =>
    rename_i b k v todo done
    refine ⟨hs.inv, hs.cap, hok, halive (by simp), lost, ?_, hlost'⟩
    have hf := flying_set (q := .wrap b todo (done ++ [(k, (D.wrap s.fac v).1)])) h
    simp only [backIn, pushedIn, List.flatMap_append, List.flatMap_cons, List.flatMap_nil, List.append_nil,
      Pc.flying] at *
    perms [hb, hf]
  | wrapped h =>
    rename_i b done
    refine ⟨hs.inv, hs.cap, hok, halive (by simp), lost, ?_, hlost'⟩
    have hf := flying_set (q := .ready (.push b) (.push done)) h
    simp only [backIn, pushedIn, List.flatMap_append, List.flatMap_cons, List.flatMap_nil, List.append_nil,
      Pc.flying, Op.given] at *
    perms [hb, hf]
  | panic h hp =>
    obtain ⟨r, c, h1, -⟩ := observe_lawful hC hs.inv _
    rw [hp] at h1
    cases h1
  | exec h hp =>
    rename_i o d r c
    obtain ⟨r', c', h1, h2, h3, h4⟩ := observe_lawful hC hs.inv d
    rw [hp] at h1
    simp only [Res.ok.injEq, Prod.mk.injEq] at h1
    obtain ⟨rfl, rfl⟩ := h1
    refine ⟨h2, h3.trans hs.cap, hok, halive (by simp), lost, ?_, hlost'⟩
    have hf := flying_set (q := .ret o (bare D r)) h
    have hg := hs.ok _ (List.mem_of_getElem? h)
    have h5 := h4.map (strip D)
    replace hg : d.given.map (strip D) = o.given := hg.1
    simp only [backIn, pushedIn, List.flatMap_append, List.flatMap_cons, List.flatMap_nil, List.append_nil,
      Pc.flying, List.map_append, bare_elements, hg] at *
    perms [hb, hf, h5]
  | clashT h =>
    refine ⟨hs.inv, hs.cap, hok, fun _ => ⟨i, by simp⟩, lost, ?_, fun _ => ⟨i, by simp⟩⟩
    have hf := flying_set (q := .dead) h
    simp only [backIn, pushedIn, List.flatMap_append, List.flatMap_cons, List.flatMap_nil, List.append_nil,
      Pc.flying] at *
    perms [hb, hf]
  | clash h =>
    rename_i o d _
    refine ⟨hs.inv, hs.cap, hok, fun _ => ⟨i, by simp⟩, lost ++ o.given, ?_, fun _ => ⟨i, by simp⟩⟩
    have hf := flying_set (q := .dead) h
    simp only [backIn, pushedIn, List.flatMap_append, List.flatMap_cons, List.flatMap_nil, List.append_nil,
      Pc.flying] at *
    perms [hb, hf]
  | skip h hd =>
    rename_i b d
    refine ⟨hs.inv, hs.cap, hok, halive (by simp), lost ++ b, ?_, fun _ => later (hs.alive hd)⟩
    have hf := flying_set (q := .ret (.push b) (.many [])) h
    simp only [backIn, pushedIn, List.flatMap_append, List.flatMap_cons, List.flatMap_nil, List.append_nil,
      Pc.flying, Op.given] at *
    perms [hb, hf]
  | ret h =>
    rename_i o r
    refine ⟨hs.inv, hs.cap, hok, halive (by simp), lost, ?_, hlost'⟩
    have hf := flying_set (q := .idle) h
    simp only [backIn, pushedIn, List.flatMap_append, List.flatMap_cons, List.flatMap_nil, List.append_nil,
      Pc.flying] at *
    perms [hb, hf]

theorem new_cinv {I : C.State → Prop} {ec : C.State → List (K × D.Item)} {c : C.State} (hI : I c)
    (he : ec c = []) (f : D.Factory) (n : Nat) : CInv I ec (C.capacity c) [] (.new c f n : State D C) where
  inv := hI
  cap := rfl
  ok p hp := by
    obtain rfl : p = .idle := (List.mem_replicate.1 hp).2
    trivial
  alive hp := by cases (List.mem_replicate.1 hp).2
  bal := by
    refine ⟨[], ?_, fun h => absurd rfl h⟩
    have : (List.replicate n (Pc.idle : Pc K V D.Item)).flatMap Pc.flying = [] := by
      simp only [List.flatMap_eq_nil_iff, List.mem_replicate]
      rintro p ⟨-, rfl⟩
      rfl
    simp [State.new, he, backIn, pushedIn, this]

theorem Run.cinv {I : C.State → Prop} {ec : C.State → List (K × D.Item)}
    (hC : Lawful C I ec (fun _ => True)) (hD : ∀ f v, D.unwrap (D.wrap f v).1 = v)
    {c : C.State} (hI : I c) (he : ec c = []) {f : D.Factory} {n : Nat} {l : List (Ev K V)} {s : State D C}
    (h : Run (.new c f n) l s) : CInv I ec (C.capacity c) l s := by
  induction h with
  | nil => exact new_cinv hI he f n
  | snoc _ hs ih => exact cinv_step hC hD ih (step_sound hs)

/-! ## Order of the stamps -/

/-- The elements of the calls of `push` that did not return. -/
def Pc.open {I : Type} : Pc K V I → List (K × V)
  | .wrap l _ _ => l
  | .ready o _ => o.given
  | .ret o _ => o.given
  | _ => []

/-- The decorated elements in the container or held by a thread. -/
def present (ec : C.State → List (K × D.Item)) (s : State D C) : List (K × D.Item) :=
  ec s.cont ++ s.threads.flatMap Pc.items

theorem open_set {p q : Pc K V D.Item} {ts : List (Pc K V D.Item)} {i : Nat} (h : ts[i]? = some p) :
    (p.open ++ (ts.set i q).flatMap Pc.open).Perm (q.open ++ ts.flatMap Pc.open) := by
  obtain ⟨a, b, h1, h2⟩ := Assoc.flatMap_set Pc.open q h
  rw [h1, h2]
  perms []

theorem items_set {p q : Pc K V D.Item} {ts : List (Pc K V D.Item)} {i : Nat} (h : ts[i]? = some p) :
    (p.items ++ (ts.set i q).flatMap Pc.items).Perm (q.items ++ ts.flatMap Pc.items) := by
  obtain ⟨a, b, h1, h2⟩ := Assoc.flatMap_set Pc.items q h
  rw [h1, h2]
  perms []

theorem pushedDone_snoc (l : List (Ev K V)) (e : Ev K V) :
    pushedDone (l ++ [e]) = pushedDone l ++ pushedDone [e] := by simp [pushedDone]

theorem pushedIn_snoc (l : List (Ev K V)) (e : Ev K V) :
    pushedIn (l ++ [e]) = pushedIn l ++ pushedIn [e] := by simp [pushedIn]

/-- An extension of a run by an event that calls no `push` makes no element later than another. -/
theorem Earlier.snoc {l : List (Ev K V)} {e : Ev K V} {y x : K × V} (h : Earlier (l ++ [e]) y x) :
    Earlier l y x ∨ ∃ j lx, e = .called j (.push lx) ∧ x ∈ lx ∧ y ∈ pushedDone l := by
  obtain ⟨a, b, c, i, j, ly, lx, r, hl, hy, hx⟩ := h
  rcases List.eq_nil_or_concat c with rfl | ⟨c', e', rfl⟩
  · obtain ⟨h1, h2⟩ := List.append_inj' hl rfl
    refine .inr ⟨j, lx, by simpa using h2, hx, ?_⟩
    rw [h1]
    simp only [pushedDone, List.flatMap_append, List.flatMap_cons, List.mem_append, Op.given]
    exact .inr (.inl hy)
  · refine .inl ⟨a, b, c', i, j, ly, lx, r, ?_, hy, hx⟩
    have : l ++ [e] = (a ++ .returned i (.push ly) r :: b ++ .called j (.push lx) :: c') ++ [e'] := by
      rw [hl]; simp
    exact (List.append_inj' this rfl).1

theorem Earlier.mem {l : List (Ev K V)} {y x : K × V} (h : Earlier l y x) :
    y ∈ pushedDone l ∧ x ∈ pushedIn l := by
  obtain ⟨a, b, c, i, j, ly, lx, r, rfl, hy, hx⟩ := h
  constructor
  · simp only [pushedDone, List.flatMap_append, List.flatMap_cons, List.mem_append, Op.given]
    exact .inl (.inr (.inl hy))
  · simp only [pushedIn, List.flatMap_append, List.flatMap_cons, List.mem_append, Op.given]
    exact .inr (.inl hx)

/-- The invariant: `b` and `r` are the number of readings of the counter when the `push` of an element is
called and returns. -/
structure OInv {T : Type} (ec : C.State → List (K × D.Item)) (stamp : D.Item → T) (clock : Nat → T)
    (read : D.Factory → Nat) (b r : K × V → Nat) (l : List (Ev K V)) (s : State D C) : Prop where
  ok : ∀ p ∈ s.threads, p.Ok D
  opens : (pushedDone l ++ s.threads.flatMap Pc.open).Subperm (pushedIn l)
  began : ∀ e ∈ pushedIn l, b e ≤ read s.fac
  ended : ∀ e ∈ pushedDone l, r e ≤ read s.fac
  items : ∀ x ∈ present ec s, strip D x ∈ pushedIn l ∧ ∃ n, stamp x.2 = clock n ∧ b (strip D x) ≤ n ∧
    n < read s.fac ∧ (strip D x ∈ pushedDone l → n < r (strip D x))
  earlier : ∀ y x, Earlier l y x → r y ≤ b x

theorem OInv.disjoint {T : Type} {ec : C.State → List (K × D.Item)} {stamp : D.Item → T} {clock : Nat → T}
    {read : D.Factory → Nat} {b r : K × V → Nat} {l : List (Ev K V)} {s : State D C}
    (h : OInv ec stamp clock read b r l s) (hn : (pushedIn l).Nodup) {p : Pc K V D.Item} (hp : p ∈ s.threads)
    {e : K × V} (he : e ∈ p.open) : e ∉ pushedDone l := by
  have : (pushedDone l ++ s.threads.flatMap Pc.open).Nodup := by
    obtain ⟨m, hp, hsub⟩ := h.opens
    exact hp.nodup_iff.1 (hn.sublist hsub)
  intro hd
  exact (List.nodup_append.1 this).2.2 e hd e (List.mem_flatMap.2 ⟨p, hp, he⟩) rfl

theorem oinv_step {T : Type} {I : C.State → Prop} {ec : C.State → List (K × D.Item)}
    (hC : Lawful C I ec (fun _ => True)) {stamp : D.Item → T} {clock : Nat → T} {read : D.Factory → Nat}
    (hD : Policy.Stamps D stamp clock read) {b r : K × V → Nat}
    {l : List (Ev K V)} {s s' : State D C} {i e} (hI : I s.cont) (hs : OInv ec stamp clock read b r l s)
    (h : Step s i s' e) (hn : (pushedIn (l ++ [e])).Nodup) :
    ∃ b r, OInv ec stamp clock read b r (l ++ [e]) s' := by
  classical
  have hok := ok_step hD.faithful h hs.ok
  have ho := hs.opens
  have hn' : (pushedIn l).Nodup := by
    rw [pushedIn_snoc] at hn
    exact (List.nodup_append.1 hn).1
  -- steps that neither call nor return a `push`
  have quiet : pushedIn [e] = [] → pushedDone [e] = [] → (∀ j lx, e ≠ .called j (.push lx)) →
      s'.threads.flatMap Pc.open = s.threads.flatMap Pc.open ∨
        (s'.threads.flatMap Pc.open).Subperm (s.threads.flatMap Pc.open) →
      read s.fac ≤ read s'.fac →
      (∀ x ∈ present ec s', x ∈ present ec s ∨ (stamp x.2 = clock (read s.fac) ∧ read s.fac < read s'.fac ∧
        ∃ p ∈ s.threads, strip D x ∈ p.open)) →
      OInv ec stamp clock read b r (l ++ [e]) s' := by
    intro q1 q2 q3 q4 q5 q6
    have p1 : pushedIn (l ++ [e]) = pushedIn l := by rw [pushedIn_snoc, q1, List.append_nil]
    have p2 : pushedDone (l ++ [e]) = pushedDone l := by rw [pushedDone_snoc, q2, List.append_nil]
    have q4 : (s'.threads.flatMap Pc.open).Subperm (s.threads.flatMap Pc.open) := by
      rcases q4 with q4 | q4
      · rw [q4]
      · exact q4
    refine ⟨hok, ?_, ?_, ?_, ?_, ?_⟩
    · rw [p1, p2]
      subperms [ho, q4] []
    · intro e he; rw [p1] at he; exact (hs.began e he).trans q5
    · intro e he; rw [p2] at he; exact (hs.ended e he).trans q5
    · intro x hx
      rw [p1, p2]
      rcases q6 x hx with hx | ⟨h1, h2, p, hp, h3⟩
      · obtain ⟨m, n, h1, h2, h3, h4⟩ := hs.items x hx
        exact ⟨m, n, h1, h2, by omega, h4⟩
      · have hm : strip D x ∈ pushedIn l :=
          ho.subset (List.mem_append_right _ (List.mem_flatMap.2 ⟨p, hp, h3⟩))
        exact ⟨hm, read s.fac, h1, hs.began _ hm, h2, fun hd => absurd hd (hs.disjoint hn' hp h3)⟩
    · intro y x hyx
      rcases hyx.snoc with hyx | ⟨j, lx, rfl, -⟩
      · exact hs.earlier y x hyx
      · exact absurd rfl (q3 j lx)
  cases h with
  | push h =>
    rename_i bt
    have hf := open_set (q := .wrap bt bt []) h
    have hi := items_set (q := .wrap bt bt []) h
    have e1 : pushedIn [Ev.called i (.push bt)] = bt := by simp [pushedIn, Op.given]
    have e2 : pushedDone [Ev.called i (Op.push bt)] = [] := rfl
    rw [pushedIn_snoc, e1] at hn
    have hnew : ∀ x ∈ pushedIn l, x ∉ bt := fun x h1 h2 => (List.nodup_append.1 hn).2.2 x h1 x h2 rfl
    refine ⟨fun x => if x ∈ bt then read s.fac else b x, r, hok, ?_, ?_, ?_, ?_, ?_⟩
    · rw [pushedIn_snoc, e1, pushedDone_snoc, e2]
      simp only [Pc.open] at hf
      subperms [ho] [hf]
    · intro x hx
      rw [pushedIn_snoc, e1] at hx
      by_cases hb : x ∈ bt
      · simp [hb]
      · simp only [hb, if_false]
        exact hs.began x ((List.mem_append.1 hx).resolve_right hb)
    · intro x hx
      rw [pushedDone_snoc, e2, List.append_nil] at hx
      exact hs.ended x hx
    · intro x hx
      have : x ∈ present ec s := by
        refine (List.Perm.mem_iff ?_).1 hx
        simp only [Pc.items, List.nil_append] at hi
        exact hi.append_left _
      obtain ⟨m, n, h1, h2, h3, h4⟩ := hs.items x this
      rw [pushedIn_snoc, pushedDone_snoc, e2, List.append_nil]
      refine ⟨List.mem_append_left _ m, n, h1, ?_, h3, h4⟩
      simpa [hnew _ m] using h2
    · intro y x hyx
      rcases hyx.snoc with hyx | ⟨j, lx, he, hx, hy⟩
      · have := hnew _ hyx.mem.2
        simpa [this] using hs.earlier y x hyx
      · cases he
        simpa [hx] using hs.ended y hy
  | takes h =>
    rename_i ks
    refine ⟨b, r, quiet (by simp [pushedIn, Op.given]) rfl (by simp) (.inr ?_) le_rfl ?_⟩
    · have hf := open_set (q := .taking ks ks []) h
      simp only [Pc.open, List.nil_append] at hf
      exact hf.subperm
    · intro x hx
      have hi := items_set (q := .taking ks ks []) h
      simp only [Pc.items, List.nil_append] at hi
      exact .inl ((hi.append_left _).mem_iff.1 hx)
  | take h hp =>
    rename_i ks k todo out rs c
    obtain ⟨r', c', h1, -, -, h4⟩ := observe_lawful hC hI (.take k)
    simp only [Block.observe, hp, Res.ok_bind, Res.pure_eq, Res.ok.injEq, Prod.mk.injEq] at h1
    obtain ⟨rfl, rfl⟩ := h1
    have hf := open_set (q := .taking ks todo (out ++ (rs.map (strip D)).toList)) h
    have hi := items_set (q := .taking ks todo (out ++ (rs.map (strip D)).toList)) h
    simp only [Pc.open, List.nil_append] at hf
    simp only [Pc.items, List.nil_append] at hi
    refine ⟨b, r, quiet rfl rfl (by simp) (.inr hf.subperm) le_rfl ?_⟩
    intro x hx
    refine .inl ?_
    rcases List.mem_append.1 hx with hx | hx
    · have := h4.mem_iff.1 (List.mem_append_left _ hx)
      simp only [Op.given, List.append_nil] at this
      exact List.mem_append_left _ this
    · exact List.mem_append_right _ (hi.mem_iff.1 hx)
  | takePanic h hp =>
    rename_i ks k todo out
    obtain ⟨r, c, h1, -⟩ := observe_lawful hC hI (.take k)
    simp only [Block.observe, hp] at h1
    cases h1
  | taken h =>
    rename_i ks out
    have hf := open_set (q := .ret (.takeMultiple ks) (.keyed out ks)) h
    have hi := items_set (q := .ret (.takeMultiple ks) (.keyed out ks)) h
    simp only [Pc.open, Op.given, List.nil_append] at hf
    simp only [Pc.items, List.nil_append] at hi
    refine ⟨b, r, quiet rfl rfl (by simp) (.inr hf.subperm) le_rfl ?_⟩
    exact fun x hx => .inl ((hi.append_left _).mem_iff.1 hx)
  | call h hno =>
    rename_i o d
    refine ⟨b, r, quiet (by simp [pushedIn, given_nil hno]) rfl (by
      rintro j lx he; cases he; simp [forward] at hno) (.inr ?_) le_rfl ?_⟩
    · have hf := open_set (q := .ready o d) h
      simp only [Pc.open, given_nil hno, List.nil_append] at hf
      exact hf.subperm
    · intro x hx
      have hi := items_set (q := .ready o d) h
      simp only [Pc.items, forward_given hno, List.nil_append] at hi
      exact .inl ((hi.append_left _).mem_iff.1 hx)
  | wrap h =>
    rename_i bt k v todo done
    have hf := open_set (q := .wrap bt todo (done ++ [(k, (D.wrap s.fac v).1)])) h
    have hi := items_set (q := .wrap bt todo (done ++ [(k, (D.wrap s.fac v).1)])) h
    simp only [Pc.open] at hf
    refine ⟨b, r, quiet rfl rfl (by simp) (.inr ?_) (by rw [(hD.wrap s.fac v).2]; omega) ?_⟩
    · subperms [List.Subperm.refl bt] [hf]
    · intro x hx
      simp only [Pc.items] at hi
      have : x ∈ present ec s ∨ x = (k, (D.wrap s.fac v).1) := by
        rcases List.mem_append.1 hx with hx | hx
        · exact .inl (List.mem_append_left _ hx)
        · have := hi.mem_iff.1 (List.mem_append_right done hx)
          simp only [List.mem_append, List.mem_singleton] at this
          rcases this with (h1 | h1) | h1
          · exact .inl (List.mem_append_right _ (List.mem_flatMap.2 ⟨_, List.mem_of_getElem? h, h1⟩))
          · exact .inr h1
          · exact .inl (List.mem_append_right _ h1)
      rcases this with hx | rfl
      · exact .inl hx
      · refine .inr ⟨(hD.wrap s.fac v).1, ?_, _, List.mem_of_getElem? h, ?_⟩
        · show read s.fac < read (D.wrap s.fac v).2
          rw [(hD.wrap s.fac v).2]; omega
        · have := hs.ok _ (List.mem_of_getElem? h)
          simp only [Pc.Ok] at this
          simp [Pc.open, strip, hD.faithful, ← this]
  | wrapped h =>
    rename_i bt done
    have hf := open_set (q := .ready (.push bt) (.push done)) h
    have hi := items_set (q := .ready (.push bt) (.push done)) h
    simp only [Pc.open, Op.given] at hf
    simp only [Pc.items, Op.given] at hi
    refine ⟨b, r, quiet rfl rfl (by simp) (.inr ?_) le_rfl ?_⟩
    · subperms [List.Subperm.refl bt] [hf]
    · intro x hx
      refine .inl ?_
      rcases List.mem_append.1 hx with hx | hx
      · exact List.mem_append_left _ hx
      · rcases List.mem_append.1 (hi.mem_iff.1 (List.mem_append_right done hx)) with h1 | h1
        · exact List.mem_append_right _ (List.mem_flatMap.2 ⟨_, List.mem_of_getElem? h, h1⟩)
        · exact List.mem_append_right _ h1
  | panic h hp =>
    obtain ⟨r, c, h1, -⟩ := observe_lawful hC hI _
    rw [hp] at h1
    cases h1
  | exec h hp =>
    rename_i o d rs c
    obtain ⟨r', c', h1, -, -, h4⟩ := observe_lawful hC hI d
    rw [hp] at h1
    simp only [Res.ok.injEq, Prod.mk.injEq] at h1
    obtain ⟨rfl, rfl⟩ := h1
    have hf := open_set (q := .ret o (bare D rs)) h
    have hi := items_set (q := .ret o (bare D rs)) h
    simp only [Pc.open] at hf
    simp only [Pc.items, List.nil_append] at hi
    refine ⟨b, r, quiet rfl rfl (by simp) (.inr ?_) le_rfl ?_⟩
    · subperms [List.Subperm.refl o.given] [hf]
    · intro x hx
      refine .inl ?_
      rcases List.mem_append.1 hx with hx | hx
      · rcases List.mem_append.1 (h4.mem_iff.1 (List.mem_append_left _ hx)) with h1 | h1
        · exact List.mem_append_left _ h1
        · exact List.mem_append_right _ (List.mem_flatMap.2 ⟨_, List.mem_of_getElem? h, h1⟩)
      · exact List.mem_append_right _ (hi.mem_iff.1 (List.mem_append_right _ hx))
  | clashT h =>
    have hf := open_set (q := .dead) h
    have hi := items_set (q := .dead) h
    simp only [Pc.open, List.nil_append] at hf
    simp only [Pc.items, List.nil_append] at hi
    refine ⟨b, r, quiet rfl rfl (by simp) (.inr hf.subperm) le_rfl ?_⟩
    exact fun x hx => .inl ((hi.append_left _).mem_iff.1 hx)
  | clash h =>
    rename_i o d _
    have hf := open_set (q := .dead) h
    have hi := items_set (q := .dead) h
    simp only [Pc.open, List.nil_append] at hf
    simp only [Pc.items, List.nil_append] at hi
    refine ⟨b, r, quiet rfl rfl (by simp) (.inr ?_) le_rfl ?_⟩
    · exact (List.sublist_append_right _ _).subperm.trans hf.subperm
    · intro x hx
      refine .inl ?_
      rcases List.mem_append.1 hx with hx | hx
      · exact List.mem_append_left _ hx
      · exact List.mem_append_right _ (hi.mem_iff.1 (List.mem_append_right _ hx))
  | skip h hd =>
    rename_i bt d
    have hf := open_set (q := .ret (.push bt) (.many [])) h
    have hi := items_set (q := .ret (.push bt) (.many [])) h
    simp only [Pc.open, Op.given] at hf
    simp only [Pc.items, List.nil_append] at hi
    refine ⟨b, r, quiet rfl rfl (by simp) (.inr ?_) le_rfl ?_⟩
    · subperms [List.Subperm.refl bt] [hf]
    · intro x hx
      refine .inl ?_
      rcases List.mem_append.1 hx with hx | hx
      · exact List.mem_append_left _ hx
      · exact List.mem_append_right _ (hi.mem_iff.1 (List.mem_append_right _ hx))
  | ret h =>
    rename_i o rs
    have hf := open_set (q := .idle) h
    have hi := items_set (q := .idle) h
    have e1 : pushedIn [Ev.returned i o rs] = [] := rfl
    have e2 : pushedDone [Ev.returned i o rs] = o.given := by simp [pushedDone]
    have hdis : ∀ x ∈ pushedDone l, x ∉ o.given := fun x h1 h2 =>
      hs.disjoint hn' (List.mem_of_getElem? h) h2 h1
    refine ⟨b, fun x => if x ∈ o.given then read s.fac else r x, hok, ?_, ?_, ?_, ?_, ?_⟩
    · rw [pushedIn_snoc, e1, pushedDone_snoc, e2]
      simp only [Pc.open] at hf
      subperms [ho] [hf]
    · intro x hx
      rw [pushedIn_snoc, e1, List.append_nil] at hx
      exact hs.began x hx
    · intro x hx
      rw [pushedDone_snoc, e2] at hx
      by_cases hb : x ∈ o.given
      · simp [hb]
      · simp only [hb, if_false]
        exact hs.ended x ((List.mem_append.1 hx).resolve_right hb)
    · intro x hx
      have : x ∈ present ec s := by
        refine (List.Perm.mem_iff ?_).1 hx
        simp only [Pc.items, List.nil_append] at hi
        exact hi.append_left _
      obtain ⟨m, n, h1, h2, h3, h4⟩ := hs.items x this
      rw [pushedIn_snoc, e1, List.append_nil, pushedDone_snoc, e2]
      refine ⟨m, n, h1, h2, h3, ?_⟩
      intro hd
      by_cases hb : strip D x ∈ o.given
      · simpa [hb] using h3
      · simp only [hb, if_false]
        exact h4 ((List.mem_append.1 hd).resolve_right hb)
    · intro y x hyx
      rcases hyx.snoc with hyx | ⟨j, lx, he, -⟩
      · simpa [hdis _ hyx.mem.1] using hs.earlier y x hyx
      · cases he

theorem Run.oinv {T : Type} {I : C.State → Prop} {ec : C.State → List (K × D.Item)}
    (hC : Lawful C I ec (fun _ => True)) {stamp : D.Item → T} {clock : Nat → T} {read : D.Factory → Nat}
    (hD : Policy.Stamps D stamp clock read) {c : C.State} (hI : I c) (he : ec c = []) {f : D.Factory} {n : Nat}
    {l : List (Ev K V)} {s : State D C} (h : Run (.new c f n) l s) (hn : (pushedIn l).Nodup) :
    ∃ b r, OInv ec stamp clock read b r l s := by
  induction h with
  | nil =>
    have hz : ∀ {β : Type} (g : Pc K V D.Item → List β), g .idle = [] →
        (List.replicate n (Pc.idle : Pc K V D.Item)).flatMap g = [] := by
      intro β g hg
      simp only [List.flatMap_eq_nil_iff, List.mem_replicate]
      rintro p ⟨-, rfl⟩
      exact hg
    refine ⟨fun _ => 0, fun _ => 0, ?_, ?_, ?_, ?_, ?_, ?_⟩
    · exact (new_cinv hI he f n).ok
    · simp [State.new, hz Pc.open rfl, pushedDone, pushedIn]
    · intro e he; cases he
    · intro e he; cases he
    · intro x hx
      simp [present, State.new, he, hz Pc.items rfl] at hx
    · intro y x _; exact le_rfl
  | snoc hr hs ih =>
    obtain ⟨b, r, ih⟩ := ih (by
      rw [pushedIn_snoc] at hn
      exact (List.nodup_append.1 hn).1)
    exact oinv_step hC hD (hr.cinv hC hD.faithful hI he).inv ih (step_sound hs) hn

/-! ## Evictions -/

/-- What is evicted is at least what is kept, or was there before what is kept. -/
structure Evicts {I : Type} [LE I] (C : Block K I) (Inv : C.State → Prop) (ec : C.State → List (K × I)) :
    Prop where
  pop : ∀ {s n out s'}, Inv s → C.pop s n = .ok (out, s') → ∀ y ∈ ec s', ∀ x ∈ out, y.2 ≤ x.2
  push : ∀ {s l out s'}, Inv s → C.push s l = .ok (out, s') → ∀ y ∈ ec s', ∀ x ∈ out,
    (x ∈ ec s ∧ y ∈ l) ∨ y.2 ≤ x.2

theorem array_evicts {I : Type} [LE I] {sz : K × I → Nat} {srt srtS : Sorter (K × I)} [LinearOrder K]
    (hS : ∀ l, (srt.run l).Pairwise (fun a b => a.2 ≤ b.2))
    (hS' : ∀ l, (srtS.run l).Pairwise (fun a b => a.2 ≤ b.2)) :
    Evicts (arrayBlock sz srt srtS) (Array.Inv sz) (fun a : Array K I => a.values) where
  pop hi h := (Array.pop_order hS hi h).2
  push hi h := (Array.push_order hS hS' hi h).2

theorem viaDefault_evicts {I : Type} [LE I] {C : Block K I} {Inv ec} (h : Evicts C Inv ec) :
    Evicts (viaDefault C) Inv ec := ⟨h.pop, h.push⟩

/-- Nothing is evicted by a `pop` or a `push` while something pushed earlier is kept. -/
theorem Run.evicts {T : Type} [LinearOrder T] [LE D.Item] {I : C.State → Prop}
    {ec : C.State → List (K × D.Item)}
    (hC : Lawful C I ec (fun _ => True)) (hE : Evicts C I ec) {stamp : D.Item → T} {clock : Nat → T}
    {read : D.Factory → Nat} (hD : Policy.Stamps D stamp clock read)
    (hle : ∀ a b : D.Item, a ≤ b ↔ stamp b ≤ stamp a) (hm : StrictMono clock)
    {c : C.State} (hI : I c) (he : ec c = []) {f : D.Factory} {n : Nat}
    {l : List (Ev K V)} {s s' : State D C} (h : Run (.new c f n) l s) (hn : (pushedIn l).Nodup)
    {i : Nat} {a : Act K V} {o : Op K V} {r : Obs K V} (hs : step s i a = some (s', .executed i o r))
    (ho : (∃ m, o = .pop m) ∨ ∃ b, o = .push b) :
    ∀ x ∈ r.elements, ∀ y ∈ (ec s'.cont).map (strip D), ¬ Earlier l y x := by
  have hci := h.cinv hC hD.faithful hI he
  obtain ⟨b, e, hoi⟩ := h.oinv hC hD hI he hn
  cases step_sound hs with
  | exec ht hp =>
  rename_i d r c'
  obtain ⟨r', c'', h1, -, -, h4⟩ := observe_lawful hC hci.inv d
  rw [hp] at h1
  simp only [Res.ok.injEq, Prod.mk.injEq] at h1
  obtain ⟨rfl, rfl⟩ := h1
  have hok := hci.ok _ (List.mem_of_getElem? ht)
  -- what is evicted or kept was there
  have hpres : ∀ z ∈ ec c' ++ r.elements, z ∈ present ec s := by
    intro z hz
    rcases List.mem_append.1 (h4.mem_iff.1 hz) with hz | hz
    · exact List.mem_append_left _ hz
    · exact List.mem_append_right _ (List.mem_flatMap.2 ⟨_, List.mem_of_getElem? ht, hz⟩)
  have key : ∀ x ∈ r.elements, ∀ y ∈ ec c', y.2 ≤ x.2 → ¬ Earlier l (strip D y) (strip D x) := by
    intro x hx y hy hyx hear
    obtain ⟨-, nx, sx, bx, -, -⟩ := hoi.items x (hpres x (List.mem_append_right _ hx))
    obtain ⟨-, ny, sy, -, -, ey⟩ := hoi.items y (hpres y (List.mem_append_left _ hy))
    have h1 := (hle _ _).1 hyx
    rw [sx, sy, hm.le_iff_le] at h1
    have h2 := ey hear.mem.1
    have h3 := hoi.earlier _ _ hear
    omega
  intro x hx y hy
  rw [bare_elements] at hx
  obtain ⟨x', hx', rfl⟩ := List.mem_map.1 hx
  obtain ⟨y', hy', rfl⟩ := List.mem_map.1 hy
  cases d with
  | pop m =>
    simp only [Block.observe] at hp
    cases hq : C.pop s.cont m with
    | panic => rw [hq] at hp; cases hp
    | ok z =>
      rw [hq] at hp
      simp only [Res.ok_bind, Res.pure_eq, Res.ok.injEq, Prod.mk.injEq] at hp
      obtain ⟨rfl, rfl⟩ := hp
      exact key _ hx' _ hy' (hE.pop hci.inv hq _ hy' _ hx')
  | push b =>
    simp only [Block.observe] at hp
    cases hq : C.push s.cont b with
    | panic => rw [hq] at hp; cases hp
    | ok z =>
      rw [hq] at hp
      simp only [Res.ok_bind, Res.pure_eq, Res.ok.injEq, Prod.mk.injEq] at hp
      obtain ⟨rfl, rfl⟩ := hp
      rcases hE.push hci.inv hq _ hy' _ hx' with ⟨-, g⟩ | g
      · intro hear
        refine hoi.disjoint hn (List.mem_of_getElem? ht) ?_ hear.mem.1
        simp only [Pc.open]
        rw [← hok.1]
        exact List.mem_map_of_mem g
      · exact key _ hx' _ hy' g
  | _ =>
    exfalso
    rcases hok.2 with hf | ⟨b, b', -, hf⟩
    · rcases ho with ⟨m, rfl⟩ | ⟨b, rfl⟩ <;> simp [forward] at hf
    · cases hf

end Byoc.Shared
