import Verif.Proofs.ConcDecorator

/-!
# Calls one after the other on a `Decorator` shared by several threads
-/

namespace Byoc.Shared

variable {K V : Type}

/-! ## Specification -/

/-- A call that returned: when it was called, when it returned, its arguments and its result. -/
structure Done (K V : Type) where
  start : Nat
  stop : Nat
  op : Op K V
  res : Obs K V

/-- When the last call of thread `i` was made; events newest first. -/
def startOf (i : Nat) : List (Ev K V) → Nat
  | [] => 0
  | .called j _ :: l => if j = i then l.length else startOf i l
  | _ :: l => startOf i l

/-- The calls that returned; events newest first. -/
def doneOf : List (Ev K V) → List (Done K V)
  | [] => []
  | .returned i o r :: l => ⟨startOf i l, l.length, o, r⟩ :: doneOf l
  | _ :: l => doneOf l

/-- The calls that returned in an execution. -/
def calls (l : List (Ev K V)) : List (Done K V) := doneOf l.reverse

/-- The calls that returned have the results they would have one after the other, in some order that puts
a call that returned before another was called before it. -/
def Linearizable (B : Block K V) (s₀ : B.State) (l : List (Ev K V)) : Prop :=
  ∃ L : List (Done K V), L.Perm (calls l) ∧ L.Pairwise (fun a b => ¬ b.stop < a.start) ∧
    ∃ s, B.observes s₀ (L.map Done.op) = .ok (L.map Done.res, s)

/-- The number of calls of `push` made. -/
def pushCalls (l : List (Ev K V)) : Nat := l.countP fun
  | .called _ (.push _) => true
  | _ => false

/-- The number of calls of `push` that returned. -/
def pushReturns (l : List (Ev K V)) : Nat := l.countP fun
  | .returned _ (.push _) _ => true
  | _ => false

/-- `push` is called only when no other call of `push` is running. -/
def PushesApart (l : List (Ev K V)) : Prop :=
  ∀ a b i lx, l = a ++ .called i (.push lx) :: b → pushCalls a = pushReturns a

/-! ## Proof -/

theorem observes_snoc {B : Block K V} {ops : List (Op K V)} {s₀ s s' : B.State} {rs : List (Obs K V)}
    {o : Op K V} {r : Obs K V} (h : B.observes s₀ ops = .ok (rs, s)) (h' : B.observe s o = .ok (r, s')) :
    B.observes s₀ (ops ++ [o]) = .ok (rs ++ [r], s') := by
  induction ops generalizing s₀ rs with
  | nil =>
    cases h
    simp [Block.observes, h']
  | cons op ops ih =>
    simp only [Block.observes] at h
    cases h1 : B.observe s₀ op with
    | panic => rw [h1] at h; cases h
    | ok x =>
      rw [h1] at h
      simp only [Res.ok_bind] at h
      cases h2 : B.observes x.2 ops with
      | panic => rw [h2] at h; cases h
      | ok y =>
        rw [h2] at h
        simp only [Res.ok_bind, Res.pure_eq, Res.ok.injEq, Prod.mk.injEq] at h
        obtain ⟨rfl, rfl⟩ := h
        simp [Block.observes, h1, ih h2]

variable {D : Decoration V} {C : Block K D.Item}

/-- In `push`. -/
def Pc.pushing {I : Type} : Pc K V I → Prop
  | .wrap _ _ _ => True
  | .ready (.push _) _ => True
  | .ret (.push _) _ => True
  | _ => False

/-- The decorated elements a thread holds are those it would have decorated alone. -/
def Pc.Fac (D : Decoration V) (f f' : D.Factory) : Pc K V D.Item → Prop
  | .wrap l todo done => ∃ l1, l = l1 ++ todo ∧ wrapAll D f l1 = (done, f')
  | .ready (.push l) d => ∃ done, d = .push done ∧ wrapAll D f l = (done, f')
  | .taking _ _ _ => False
  | .dead => False
  | .ret (.push _) _ => f = f'
  | _ => True

theorem Pc.Fac.other {p : Pc K V D.Item} {g f g' f' : D.Factory} (hp : ¬ p.pushing) (h : p.Fac D g f) :
    p.Fac D g' f' := by
  cases p with
  | ready o d => cases o <;> first | exact trivial | exact absurd trivial hp
  | ret o d => cases o <;> first | exact trivial | exact absurd trivial hp
  | wrap => exact absurd trivial hp
  | _ => exact h

/-- The part of the invariant about decoration: at most one thread is in `push`. -/
structure TInv (D : Decoration V) (ts : List (Pc K V D.Item)) (g fac : D.Factory) (nc nr : Nat) : Prop where
  each : ∀ p ∈ ts, p.Fac D g fac
  quiet : (∀ p ∈ ts, ¬ p.pushing) → g = fac
  one : ∀ (i j : Nat) (p q : Pc K V D.Item), ts[i]? = some p → ts[j]? = some q → p.pushing → q.pushing → i = j
  busy : (∃ p ∈ ts, p.pushing) → nc = nr + 1
  free : (∀ p ∈ ts, ¬ p.pushing) → nc = nr

variable {ts : List (Pc K V D.Item)} {g f : D.Factory} {nc nr : Nat}

theorem getElem?_set' {α : Type} {l : List α} {i j : Nat} {a b x : α} (h : l[i]? = some a)
    (hj : (l.set i b)[j]? = some x) : (j = i ∧ x = b) ∨ (j ≠ i ∧ l[j]? = some x) := by
  by_cases hij : i = j
  · subst hij
    have hlt : i < l.length := (List.getElem?_eq_some_iff.1 h).1
    rw [List.getElem?_set_self hlt] at hj
    exact .inl ⟨rfl, by simpa using hj.symm⟩
  · rw [List.getElem?_set_ne hij] at hj
    exact .inr ⟨fun h => hij h.symm, hj⟩

theorem mem_set' {α : Type} {l : List α} {i : Nat} {a b x : α} (h : l[i]? = some a) (hx : x ∈ l.set i b) :
    x = b ∨ ∃ j, j ≠ i ∧ l[j]? = some x := by
  obtain ⟨j, hj⟩ := List.mem_iff_getElem?.1 hx
  rcases getElem?_set' h hj with ⟨-, h⟩ | h
  · exact .inl h
  · exact .inr ⟨j, h⟩

theorem mem_set_self' {α : Type} {l : List α} {i : Nat} {a b : α} (h : l[i]? = some a) : b ∈ l.set i b := by
  have hlt : i < l.length := (List.getElem?_eq_some_iff.1 h).1
  exact List.mem_of_getElem? (List.getElem?_set_self hlt)

theorem mem_set_other {α : Type} {l : List α} {i j : Nat} {b x : α} (hij : j ≠ i) (h : l[j]? = some x) :
    x ∈ l.set i b := by
  refine List.mem_of_getElem? (i := j) ?_
  rw [List.getElem?_set_ne (Ne.symm hij)]
  exact h

theorem TInv.neutral (h : TInv D ts g f nc nr) {i : Nat} {p q : Pc K V D.Item} (hp : ts[i]? = some p)
    (h1 : ¬ p.pushing) (h2 : ¬ q.pushing) (hq : q.Fac D g f) : TInv D (ts.set i q) g f nc nr := by
  have key : (∀ x ∈ ts.set i q, ¬ x.pushing) → ∀ x ∈ ts, ¬ x.pushing := by
    intro hx x hm hpx
    obtain ⟨j, hj⟩ := List.mem_iff_getElem?.1 hm
    by_cases hij : j = i
    · subst hij
      rw [hp] at hj
      cases hj
      exact h1 hpx
    · exact hx x (mem_set_other hij hj) hpx
  refine ⟨?_, fun hx => h.quiet (key hx), ?_, ?_, fun hx => h.free (key hx)⟩
  · intro x hx
    rcases mem_set hx with hx | rfl
    · exact h.each x hx
    · exact hq
  · intro a b x y hx hy px py
    rcases getElem?_set' hp hx with ⟨-, rfl⟩ | ⟨-, hx⟩
    · exact absurd px h2
    · rcases getElem?_set' hp hy with ⟨-, rfl⟩ | ⟨-, hy⟩
      · exact absurd py h2
      · exact h.one a b x y hx hy px py
  · rintro ⟨x, hx, px⟩
    rcases mem_set hx with hx | rfl
    · exact h.busy ⟨x, hx, px⟩
    · exact absurd px h2

theorem TInv.start (h : TInv D ts g f nc nr) {i : Nat} {p q : Pc K V D.Item} (hp : ts[i]? = some p)
    (he : nc = nr) (h2 : q.pushing) (hq : q.Fac D f f) : TInv D (ts.set i q) g f (nc + 1) nr := by
  have hno : ∀ x ∈ ts, ¬ x.pushing := fun x hx px => by
    have := h.busy ⟨x, hx, px⟩
    omega
  have hg := h.quiet hno
  subst hg
  refine ⟨?_, fun hx => absurd h2 (hx q (mem_set_self' hp)), ?_, fun _ => by omega,
    fun hx => absurd h2 (hx q (mem_set_self' hp))⟩
  · intro x hx
    rcases mem_set hx with hx | rfl
    · exact h.each x hx
    · exact hq
  · intro a b x y hx hy px py
    rcases getElem?_set' hp hx with ⟨rfl, -⟩ | ⟨-, hx⟩
    · rcases getElem?_set' hp hy with ⟨rfl, -⟩ | ⟨-, hy⟩
      · rfl
      · exact absurd py (hno y (List.mem_of_getElem? hy))
    · exact absurd px (hno x (List.mem_of_getElem? hx))

/-- The thread in `push` goes on. -/
theorem TInv.move (h : TInv D ts g f nc nr) {i : Nat} {p q : Pc K V D.Item} (hp : ts[i]? = some p)
    (h1 : p.pushing) (h2 : q.pushing) {g' f' : D.Factory} (hq : q.Fac D g' f') :
    TInv D (ts.set i q) g' f' nc nr := by
  refine ⟨?_, fun hx => absurd h2 (hx q (mem_set_self' hp)), ?_,
    fun _ => h.busy ⟨p, List.mem_of_getElem? hp, h1⟩, fun hx => absurd h2 (hx q (mem_set_self' hp))⟩
  · intro x hx
    rcases mem_set' hp hx with rfl | ⟨j, hj, hx⟩
    · exact hq
    · refine (h.each x (List.mem_of_getElem? hx)).other fun px => hj (h.one j i x p hx hp px h1)
  · intro a b x y hx hy px py
    rcases getElem?_set' hp hx with ⟨rfl, rfl⟩ | ⟨ha, hx⟩
    · rcases getElem?_set' hp hy with ⟨rfl, -⟩ | ⟨hb, hy⟩
      · rfl
      · exact absurd (h.one b a y p hy hp py h1) hb
    · exact absurd (h.one a i x p hx hp px h1) ha

/-- The thread in `push` returns. -/
theorem TInv.stop (h : TInv D ts g f nc nr) {i : Nat} {p q : Pc K V D.Item} (hp : ts[i]? = some p)
    (h1 : p.pushing) (h2 : ¬ q.pushing) (hq : q.Fac D g f) (hg : g = f) :
    TInv D (ts.set i q) g f nc (nr + 1) := by
  have hno : ∀ x ∈ ts.set i q, ¬ x.pushing := by
    intro x hx px
    rcases mem_set' hp hx with rfl | ⟨j, hj, hx⟩
    · exact h2 px
    · exact hj (h.one j i x p hx hp px h1)
  refine ⟨?_, fun _ => hg, ?_, fun ⟨x, hx, px⟩ => absurd px (hno x hx),
    fun _ => h.busy ⟨p, List.mem_of_getElem? hp, h1⟩⟩
  · intro x hx
    rcases mem_set hx with hx | rfl
    · exact h.each x hx
    · exact hq
  · intro a b x y hx hy px py
    exact absurd px (hno x (List.mem_of_getElem? hx))

/-- The records kept for the calls that acted on the container, in the order they did; `some i`: the call
of thread `i` did not return yet. -/
structure LInv (c : C.State) (f : D.Factory) (l : List (Ev K V)) (s : State D C)
    (G : List (Option Nat × Done K V)) (g : D.Factory) : Prop where
  seq : (viaDefault (decorator D C)).observes (c, f) (G.map (fun e => e.2.op)) =
    .ok (G.map (fun e => e.2.res), (s.cont, g))
  closed : ((G.filter (fun e => e.1 = none)).map Prod.snd).Perm (doneOf l.reverse)
  opened : ∀ i, G.filter (fun e => e.1 = some i) = match s.threads[i]? with
    | some (.ret o r) => [(some i, ⟨startOf i l.reverse, 0, o, r⟩)]
    | _ => []
  order : G.Pairwise (fun a b => b.1 = none → ¬ b.2.stop < a.2.start)
  starts : ∀ e ∈ G, e.2.start < l.length
  called : ∀ (i : Nat) (p : Pc K V D.Item), s.threads[i]? = some p → p ≠ .idle → startOf i l.reverse < l.length
  ok : ∀ p ∈ s.threads, p.Ok D
  inv : TInv D s.threads g s.fac (pushCalls l) (pushReturns l)

/-- A step that neither makes a call, acts on the container nor returns. -/
theorem LInv.silent {c : C.State} {f : D.Factory} {l : List (Ev K V)} {s : State D C}
    {G : List (Option Nat × Done K V)} {g : D.Factory} (h : LInv c f l s G g) {i j : Nat}
    {p q : Pc K V D.Item} {fac : D.Factory} (hp : s.threads[i]? = some p) (hid : p ≠ .idle)
    (h1 : ∀ o r, p ≠ .ret o r) (h2 : ∀ o r, q ≠ .ret o r) (hok : ∀ x ∈ s.threads.set i q, x.Ok D)
    (hT : TInv D (s.threads.set i q) g fac (pushCalls l) (pushReturns l)) :
    LInv c f (l ++ [.silent j]) (⟨s.cont, fac, s.threads.set i q⟩ : State D C) G g := by
  have hst : ∀ k, startOf k (l ++ [Ev.silent j]).reverse = startOf k l.reverse := by
    intro k; simp [startOf]
  refine ⟨h.seq, ?_, ?_, h.order, ?_, ?_, hok, ?_⟩
  · simpa [doneOf] using h.closed
  · intro k
    rw [h.opened k]
    by_cases hk : i = k
    · subst hk
      have hlt : i < s.threads.length := (List.getElem?_eq_some_iff.1 hp).1
      simp only [List.getElem?_set_self hlt, hp]
      cases p <;> first | exact absurd rfl (h1 _ _) | (cases q <;> first | rfl | exact absurd rfl (h2 _ _))
    · simp only [List.getElem?_set_ne hk, hst]
  · intro e he
    have := h.starts e he
    simp only [List.length_append, List.length_cons, List.length_nil]
    omega
  · intro k x hx hxi
    rw [hst]
    simp only [List.length_append, List.length_cons, List.length_nil]
    rcases getElem?_set' hp hx with ⟨rfl, -⟩ | ⟨-, hx⟩
    · have := h.called k p hp hid
      omega
    · have := h.called k x hx hxi
      omega
  · simpa [pushCalls, pushReturns] using hT

/-- A call. -/
theorem LInv.call {c : C.State} {f : D.Factory} {l : List (Ev K V)} {s : State D C}
    {G : List (Option Nat × Done K V)} {g : D.Factory} (h : LInv c f l s G g) {i : Nat}
    {o : Op K V} {q : Pc K V D.Item} (hp : s.threads[i]? = some .idle)
    (h2 : ∀ o r, q ≠ .ret o r) (hok : ∀ x ∈ s.threads.set i q, x.Ok D)
    (hT : TInv D (s.threads.set i q) g s.fac (pushCalls (l ++ [.called i o])) (pushReturns l)) :
    LInv c f (l ++ [.called i o]) (⟨s.cont, s.fac, s.threads.set i q⟩ : State D C) G g := by
  have hst : ∀ k, i ≠ k → startOf k (l ++ [Ev.called i o]).reverse = startOf k l.reverse := by
    intro k hk; simp [startOf, hk]
  have hst' : startOf i (l ++ [Ev.called i o]).reverse = l.length := by simp [startOf]
  refine ⟨h.seq, ?_, ?_, h.order, ?_, ?_, hok, ?_⟩
  · simpa [doneOf] using h.closed
  · intro k
    rw [h.opened k]
    by_cases hk : i = k
    · subst hk
      have hlt : i < s.threads.length := (List.getElem?_eq_some_iff.1 hp).1
      simp only [List.getElem?_set_self hlt, hp]
      cases q <;> first | rfl | exact absurd rfl (h2 _ _)
    · simp only [List.getElem?_set_ne hk, hst k hk]
  · intro e he
    have := h.starts e he
    simp only [List.length_append, List.length_cons, List.length_nil]
    omega
  · intro k x hx hxi
    simp only [List.length_append, List.length_cons, List.length_nil]
    by_cases hk : i = k
    · subst hk
      rw [hst']
      omega
    · rw [hst k hk]
      rcases getElem?_set' hp hx with ⟨rfl, -⟩ | ⟨-, hx⟩
      · exact absurd rfl hk
      · have := h.called k x hx hxi
        omega
  · simpa [pushReturns] using hT

/-- A call acts on the container. -/
theorem LInv.exec {c : C.State} {f : D.Factory} {l : List (Ev K V)} {s : State D C}
    {G : List (Option Nat × Done K V)} {g g' : D.Factory} (h : LInv c f l s G g) {i : Nat}
    {o : Op K V} {d : Op K D.Item} {r : Obs K V} {c' : C.State} (hp : s.threads[i]? = some (.ready o d))
    (hok : ∀ x ∈ s.threads.set i (.ret o r), x.Ok D)
    (hT : TInv D (s.threads.set i (.ret o r)) g' s.fac (pushCalls l) (pushReturns l))
    (hs : (viaDefault (decorator D C)).observe (s.cont, g) o = .ok (r, (c', g'))) :
    LInv c f (l ++ [.executed i o r]) (⟨c', s.fac, s.threads.set i (.ret o r)⟩ : State D C)
      (G ++ [(some i, ⟨startOf i l.reverse, 0, o, r⟩)]) g' := by
  have hst : ∀ k, startOf k (l ++ [Ev.executed i o r]).reverse = startOf k l.reverse := by
    intro k; simp [startOf]
  have hlt : i < s.threads.length := (List.getElem?_eq_some_iff.1 hp).1
  have hcall := h.called i _ hp (by simp)
  refine ⟨?_, ?_, ?_, ?_, ?_, ?_, hok, ?_⟩
  · simp only [List.map_append, List.map_cons, List.map_nil]
    exact observes_snoc h.seq hs
  · simpa [doneOf] using h.closed
  · intro k
    rw [List.filter_append, h.opened k]
    by_cases hk : i = k
    · subst hk
      simp only [List.getElem?_set_self hlt, hp, hst]
      simp
    · simp only [List.getElem?_set_ne hk, hst]
      simp [hk]
  · rw [List.pairwise_append]
    refine ⟨h.order, by simp, ?_⟩
    intro a _ b hb
    simp only [List.mem_singleton] at hb
    subst hb
    simp
  · intro e he
    simp only [List.length_append, List.length_cons, List.length_nil]
    rcases List.mem_append.1 he with he | he
    · have := h.starts e he
      omega
    · simp only [List.mem_singleton] at he
      subst he
      simp only
      omega
  · intro k x hx hxi
    rw [hst]
    simp only [List.length_append, List.length_cons, List.length_nil]
    rcases getElem?_set' hp hx with ⟨rfl, -⟩ | ⟨-, hx⟩
    · omega
    · have := h.called k x hx hxi
      omega
  · simpa [pushCalls, pushReturns] using hT

/-- The record of the call of thread `i` is completed. -/
def close (i n : Nat) (e : Option Nat × Done K V) : Option Nat × Done K V :=
  if e.1 = some i then (none, { e.2 with stop := n }) else e

theorem close_closed (i n : Nat) (G : List (Option Nat × Done K V)) :
    (((G.map (close i n)).filter (fun e => e.1 = none)).map Prod.snd).Perm
      ((G.filter (fun e => e.1 = some i)).map (fun e => { e.2 with stop := n }) ++
        (G.filter (fun e => e.1 = none)).map Prod.snd) := by
  induction G with
  | nil => simp
  | cons e G ih =>
    obtain ⟨a, d⟩ := e
    rcases a with _ | j
    · simp only [List.map_cons, close, reduceCtorEq, if_false, List.filter_cons, decide_true, if_true,
        decide_false, Bool.false_eq_true]
      exact (List.Perm.cons _ ih).trans List.perm_middle.symm
    · by_cases hj : j = i
      · subst hj
        simp only [List.map_cons, close, if_true, List.filter_cons, decide_true, reduceCtorEq, decide_false,
          Bool.false_eq_true, if_false, List.cons_append]
        exact List.Perm.cons _ ih
      · simpa [close, hj] using ih

theorem close_opened (i n k : Nat) (G : List (Option Nat × Done K V)) :
    (G.map (close i n)).filter (fun e => e.1 = some k) =
      if k = i then [] else G.filter (fun e => e.1 = some k) := by
  induction G with
  | nil => simp
  | cons e G ih =>
    obtain ⟨a, d⟩ := e
    rw [List.map_cons, List.filter_cons, ih]
    rcases a with _ | j
    · simp [close]
    · by_cases hj : j = i
      · subst hj
        by_cases hk : k = j
        · simp [close, hk]
        · have : j ≠ k := fun h => hk h.symm
          simp [close, hk, this]
      · by_cases hk : k = i
        · subst hk
          simp [close, hj]
        · simp only [close, Option.some.injEq, hj, if_false, hk]
          rw [List.filter_cons]
          simp only [Option.some.injEq]

/-- A call returns. -/
theorem LInv.ret {c : C.State} {f : D.Factory} {l : List (Ev K V)} {s : State D C}
    {G : List (Option Nat × Done K V)} {g : D.Factory} (h : LInv c f l s G g) {i : Nat}
    {o : Op K V} {r : Obs K V} (hp : s.threads[i]? = some (.ret o r))
    (hok : ∀ x ∈ s.threads.set i .idle, x.Ok D)
    (hT : TInv D (s.threads.set i .idle) g s.fac (pushCalls l) (pushReturns (l ++ [.returned i o r]))) :
    LInv c f (l ++ [.returned i o r]) (⟨s.cont, s.fac, s.threads.set i .idle⟩ : State D C)
      (G.map (close i l.length)) g := by
  have hst : ∀ k, startOf k (l ++ [Ev.returned i o r]).reverse = startOf k l.reverse := by
    intro k; simp [startOf]
  have hlt : i < s.threads.length := (List.getElem?_eq_some_iff.1 hp).1
  have e1 : ∀ e : Option Nat × Done K V, (close i l.length e).2.op = e.2.op := by
    intro e; unfold close; split <;> rfl
  have e2 : ∀ e : Option Nat × Done K V, (close i l.length e).2.res = e.2.res := by
    intro e; unfold close; split <;> rfl
  have e3 : ∀ e : Option Nat × Done K V, (close i l.length e).2.start = e.2.start := by
    intro e; unfold close; split <;> rfl
  refine ⟨?_, ?_, ?_, ?_, ?_, ?_, hok, ?_⟩
  · rw [List.map_map, List.map_map]
    simp only [Function.comp_def, e1, e2]
    exact h.seq
  · refine (close_closed i l.length G).trans ?_
    rw [h.opened i, hp]
    simp only [List.map_cons, List.map_nil, List.reverse_append, List.reverse_cons, List.reverse_nil,
      List.nil_append, List.cons_append, doneOf, List.length_reverse]
    exact h.closed.cons _
  · intro k
    rw [close_opened]
    by_cases hk : i = k
    · subst hk
      simp [List.getElem?_set_self hlt]
    · have : k ≠ i := fun h => hk h.symm
      simp only [List.getElem?_set_ne hk, hst, this, if_false]
      exact h.opened k
  · rw [List.pairwise_map]
    refine h.order.imp_of_mem ?_
    intro a b ha _ hab
    rw [e3]
    unfold close
    split
    · intro _
      have := h.starts a ha
      simp only
      omega
    · exact hab
  · intro e he
    obtain ⟨e', he', rfl⟩ := List.mem_map.1 he
    rw [e3]
    have := h.starts e' he'
    simp only [List.length_append, List.length_cons, List.length_nil]
    omega
  · intro k x hx hxi
    rw [hst]
    simp only [List.length_append, List.length_cons, List.length_nil]
    rcases getElem?_set' hp hx with ⟨rfl, rfl⟩ | ⟨-, hx⟩
    · exact absurd rfl hxi
    · have := h.called k x hx hxi
      omega
  · simpa [pushCalls] using hT

theorem wrapAll_snoc (l : List (K × V)) (f : D.Factory) (k : K) (v : V) :
    wrapAll D f (l ++ [(k, v)]) = ((wrapAll D f l).1 ++ [(k, (D.wrap (wrapAll D f l).2 v).1)],
      (D.wrap (wrapAll D f l).2 v).2) := by
  induction l generalizing f with
  | nil => rfl
  | cons e l ih =>
    obtain ⟨k', v'⟩ := e
    simp only [List.cons_append, wrapAll, ih]

/-- A forwarded call is the decorator's. -/
theorem observe_forward {o : Op K V} {d : Op K D.Item} (h : forward o = some d) {c c' : C.State}
    {g : D.Factory} {r : Obs K D.Item} (hr : C.observe c d = .ok (r, c')) :
    (viaDefault (decorator D C)).observe (c, g) o = .ok (bare D r, (c', g)) := by
  cases o with
  | push => cases h
  | takeMultiple => cases h
  | contains k =>
    cases h
    simp only [Block.observe] at hr
    cases h1 : C.contains c k with
    | panic => rw [h1] at hr; cases hr
    | ok x => rw [h1] at hr; cases hr; simp [Block.observe, viaDefault, decorator, h1, bare]
  | take k =>
    cases h
    simp only [Block.observe] at hr
    cases h1 : C.take c k with
    | panic => rw [h1] at hr; cases hr
    | ok x => rw [h1] at hr; cases hr; simp [Block.observe, viaDefault, decorator, h1, bare]
  | pop k =>
    cases h
    simp only [Block.observe] at hr
    cases h1 : C.pop c k with
    | panic => rw [h1] at hr; cases hr
    | ok x => rw [h1] at hr; cases hr; simp [Block.observe, viaDefault, decorator, h1, bare]
  | flush =>
    cases h
    simp only [Block.observe] at hr
    cases h1 : C.flush c with
    | panic => rw [h1] at hr; cases hr
    | ok x => rw [h1] at hr; cases hr; simp [Block.observe, viaDefault, decorator, h1, bare]

theorem linv_step (hD : ∀ f v, D.unwrap (D.wrap f v).1 = v) {c : C.State} {f : D.Factory}
    {l : List (Ev K V)} {s s' : State D C} {G : List (Option Nat × Done K V)} {g : D.Factory}
    (h : LInv c f l s G g) {i : Nat} {e : Ev K V} (hs : Step s i s' e) (hcalm : ∀ j, e ≠ .panicked j)
    (hnt : ∀ j ks, e ≠ .called j (.takeMultiple ks))
    (hap : ∀ j lx, e = .called j (.push lx) → pushCalls l = pushReturns l) :
    ∃ G' g', LInv c f (l ++ [e]) s' G' g' := by
  have hok := ok_step hD hs h.ok
  cases hs with
  | push hp =>
    rename_i b
    refine ⟨G, g, h.call hp (by simp) hok ?_⟩
    have : pushCalls (l ++ [Ev.called i (.push b)]) = pushCalls l + 1 := by simp [pushCalls]
    rw [this]
    exact h.inv.start hp (hap _ _ rfl) trivial ⟨[], rfl, rfl⟩
  | takes hp => exact absurd rfl (hnt _ _)
  | call hp ho =>
    rename_i o d
    refine ⟨G, g, h.call hp (by simp) hok ?_⟩
    have e1 : pushCalls (l ++ [Ev.called i o]) = pushCalls l := by
      cases o <;> first | (simp [pushCalls]; done) | cases ho
    rw [e1]
    have : ¬ (Pc.ready o d : Pc K V D.Item).pushing := by
      cases o <;> first | exact id | cases ho
    refine h.inv.neutral hp id this ?_
    cases o <;> trivial
  | take hp => exact (h.inv.each _ (List.mem_of_getElem? hp)).elim
  | takePanic hp => exact absurd rfl (hcalm _)
  | taken hp => exact (h.inv.each _ (List.mem_of_getElem? hp)).elim
  | wrap hp =>
    rename_i b k v todo done
    refine ⟨G, g, h.silent hp (by simp) (by simp) (by simp) hok ?_⟩
    obtain ⟨l1, h1, h2⟩ := h.inv.each _ (List.mem_of_getElem? hp)
    refine h.inv.move (q := .wrap b todo (done ++ [(k, (D.wrap s.fac v).1)])) hp trivial trivial
      ⟨l1 ++ [(k, v)], by simp [h1], ?_⟩
    rw [wrapAll_snoc, h2]
  | wrapped hp =>
    rename_i b done
    refine ⟨G, g, h.silent hp (by simp) (by simp) (by simp) hok ?_⟩
    obtain ⟨l1, h1, h2⟩ := h.inv.each _ (List.mem_of_getElem? hp)
    refine h.inv.move (q := .ready (.push b) (.push done)) hp trivial trivial ⟨done, rfl, ?_⟩
    rw [h1, List.append_nil, h2]
  | panic hp => exact absurd rfl (hcalm _)
  | exec hp hr =>
    rename_i o d r c'
    rcases (h.ok _ (List.mem_of_getElem? hp)).2 with hf | ⟨b, b', rfl, rfl⟩
    · refine ⟨_, g, h.exec hp hok ?_ (observe_forward hf hr)⟩
      have h1 : ¬ (Pc.ready o d : Pc K V D.Item).pushing := by
        cases o <;> first | exact id | cases hf
      have h2 : ¬ (Pc.ret o (bare D r) : Pc K V D.Item).pushing := by
        cases o <;> first | exact id | cases hf
      refine h.inv.neutral hp h1 h2 ?_
      cases o <;> trivial
    · obtain ⟨done, h1, h2⟩ := h.inv.each _ (List.mem_of_getElem? hp)
      cases h1
      refine ⟨_, s.fac, h.exec hp hok
        (h.inv.move (q := .ret (.push b) (bare D r)) hp trivial trivial rfl) ?_⟩
      simp only [Block.observe] at hr
      cases h3 : C.push s.cont b' with
      | panic => rw [h3] at hr; cases hr
      | ok x =>
        rw [h3] at hr
        cases hr
        simp [Block.observe, viaDefault, decorator, h2, h3, bare]
  | clashT hp => exact absurd rfl (hcalm _)
  | clash hp => exact absurd rfl (hcalm _)
  | skip hp hd => exact (h.inv.each _ hd).elim
  | ret hp =>
    rename_i o r
    refine ⟨_, g, h.ret hp hok ?_⟩
    by_cases ho : ∃ b, o = .push b
    · obtain ⟨b, rfl⟩ := ho
      have : pushReturns (l ++ [Ev.returned i (.push b) r]) = pushReturns l + 1 := by simp [pushReturns]
      rw [this]
      exact h.inv.stop hp trivial id trivial (h.inv.each _ (List.mem_of_getElem? hp))
    · have : pushReturns (l ++ [Ev.returned i o r]) = pushReturns l := by
        cases o <;> first | (simp [pushReturns]; done) | exact absurd ⟨_, rfl⟩ ho
      rw [this]
      refine h.inv.neutral hp ?_ id trivial
      cases o <;> first | exact id | exact absurd ⟨_, rfl⟩ ho

/-- Without overlapping calls of `push`, without `take_multiple` and without a panic, the calls act one
after the other. -/
theorem Run.linearizable (hD : ∀ f v, D.unwrap (D.wrap f v).1 = v) {c : C.State} {f : D.Factory} {n : Nat}
    {l : List (Ev K V)} {s : State D C} (h : Run (.new c f n) l s)
    (hcalm : ∀ j, .panicked j ∉ l) (hnt : ∀ j ks, .called j (.takeMultiple ks) ∉ l) (hap : PushesApart l)
    (hend : ∀ p ∈ s.threads, p = .idle) :
    Linearizable (viaDefault (decorator D C)) (c, f) l := by
  have key : ∃ G g, LInv c f l s G g := by
    clear hend
    induction h with
    | nil =>
      refine ⟨[], f, rfl, .refl _, ?_, .nil, by simp, ?_, ?_, ?_⟩
      · intro i
        simp only [State.new, List.getElem?_replicate]
        by_cases hi : i < n <;> simp [hi]
      · intro i p hp hne
        obtain rfl : p = .idle := (List.mem_replicate.1 (List.mem_of_getElem? hp)).2
        exact absurd rfl hne
      · intro p hp
        obtain rfl : p = .idle := (List.mem_replicate.1 hp).2
        trivial
      · have hno : ∀ p ∈ (State.new c f n : State D C).threads, ¬ p.pushing := by
          intro p hp
          obtain rfl : p = .idle := (List.mem_replicate.1 hp).2
          exact id
        refine ⟨?_, fun _ => rfl, ?_, fun ⟨p, hp, px⟩ => absurd px (hno p hp), fun _ => rfl⟩
        · intro p hp
          obtain rfl : p = .idle := (List.mem_replicate.1 hp).2
          trivial
        · intro i j p q hp _ px
          exact absurd px (hno p (List.mem_of_getElem? hp))
    | snoc hr hs ih =>
      rename_i l0 _ _ i _ e
      obtain ⟨G, g, ih⟩ := ih (fun j hj => hcalm j (List.mem_append_left _ hj))
        (fun j ks hj => hnt j ks (List.mem_append_left _ hj))
        (fun a b j lx hl => hap a (b ++ [e]) j lx (by simp [hl]))
      refine linv_step hD ih (step_sound hs) ?_ ?_ ?_
      · rintro j rfl
        exact hcalm j (by simp)
      · rintro j ks rfl
        exact hnt j ks (by simp)
      · rintro j lx rfl
        exact hap l0 [] j lx rfl
  obtain ⟨G, g, h⟩ := key
  have hall : ∀ e ∈ G, e.1 = none := by
    intro e he
    cases h1 : e.1 with
    | none => rfl
    | some i =>
      have h2 := h.opened i
      have : e ∈ G.filter (fun e => e.1 = some i) := List.mem_filter.2 ⟨he, by simp [h1]⟩
      rw [h2] at this
      cases h3 : s.threads[i]? with
      | none => rw [h3] at this; cases this
      | some p =>
        rw [h3, hend p (List.mem_of_getElem? h3)] at this
        cases this
  refine ⟨G.map Prod.snd, ?_, ?_, (s.cont, g), ?_⟩
  · have := h.closed
    rwa [List.filter_eq_self.2 (fun e he => by simpa using hall e he)] at this
  · rw [List.pairwise_map]
    exact h.order.imp_of_mem fun _ hb hab => hab (hall _ hb)
  · rw [List.map_map, List.map_map]
    exact h.seq

end Byoc.Shared
