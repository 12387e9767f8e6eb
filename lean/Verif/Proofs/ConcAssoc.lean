import Verif.Model.ConcAssoc
import Verif.Proofs.Associative
import Verif.Proofs.Sequential

/-! # Proofs on an `Associative` shared by several threads -/

namespace Byoc.Assoc

open Byoc.Seq (Container SCall SObs)
open Byoc.Lock (sum_set le_sum le_sum_two)

variable {K V S : Type}

/-! ## The programs do what the sequential model does -/

section
variable {B : Block K V} {G : GetOps B}

theorem get_mid {α : Type} (pre : List α) (x : α) (rest : List α) :
    (pre ++ x :: rest)[pre.length]? = some x := by simp

theorem set_mid {α : Type} (pre : List α) (x y : α) (rest : List α) :
    (pre ++ x :: rest).set pre.length y = (pre ++ [y]) ++ rest := by simp

theorem alone_step {C : Container K V} {j : Nat} {c : SCall K V} {next : SObs K V → Prog K V}
    {s : List C.block.State} {x : C.block.State} (hx : s[j]? = some x) :
    (Prog.step j c next).alone C s =
      (do let (r, x') ← C.exec c x; (next r).alone C (s.set j x')) := by
  rw [Prog.alone, hx]; rfl

/-- A call on a set. -/
theorem alone_ok {C : Container K V} {j : Nat} {c : SCall K V} {next : SObs K V → Prog K V}
    {s s' : List C.block.State} {x x' : C.block.State} {r} (hx : s[j]? = some x)
    (he : C.exec c x = .ok (r, x')) (hs : s.set j x' = s') :
    (Prog.step j c next).alone C s = (next r).alone C s' := by
  rw [alone_step hx, he, ← hs]; rfl

theorem alone_panic {C : Container K V} {j : Nat} {c : SCall K V} {next : SObs K V → Prog K V}
    {s : List C.block.State} {x : C.block.State} (hx : s[j]? = some x)
    (he : C.exec c x = .panic) : (Prog.step j c next).alone C s = .panic := by
  rw [alone_step hx, he]; rfl

theorem exec_op (o : Op K V) (x : B.State) : (Container.ofGet B G).exec (.op o) x =
    (do let (r, x') ← B.observe x o; pure (.obs r, x')) := rfl

theorem sum_alone (c : SCall K V) (f : B.State → Nat)
    (hc : ∀ x, (Container.ofGet B G).exec c x = .ok (.num (f x), x)) :
    ∀ (rest pre : List B.State) (acc : Nat),
    (sumProg c (List.range' pre.length rest.length) acc).alone (.ofGet B G) (pre ++ rest) =
      .ok (.num (acc + (rest.map f).sum), pre ++ rest) := by
  intro rest
  induction rest with
  | nil => intro pre acc; simp [sumProg, Prog.alone]
  | cons x rest ih =>
    intro pre acc
    rw [List.length_cons, List.range'_succ, sumProg]
    refine (alone_ok (get_mid pre x rest) (hc x) (set_mid pre x x rest)).trans ?_
    have := ih (pre ++ [x]) (acc + f x)
    simp only [List.length_append, List.length_cons, List.length_nil, Nat.zero_add] at this
    refine this.trans ?_
    simp [Nat.add_assoc]

theorem flush_alone : ∀ (rest pre : List B.State) (out : List (K × V)),
    (flushProg (List.range' pre.length rest.length) out).alone (.ofGet B G) (pre ++ rest) =
      (do let (o, rest') ← Batch.flush B rest; .ok (.obs (.many (out ++ o)), pre ++ rest')) := by
  intro rest
  induction rest with
  | nil => intro pre out; simp [flushProg, Prog.alone, Batch.flush]
  | cons x rest ih =>
    intro pre out
    rw [List.length_cons, List.range'_succ, flushProg]
    simp only [Batch.flush]
    cases h : B.flush x with
    | panic => exact alone_panic (get_mid pre x rest) (by simp [exec_op, Block.observe, h])
    | ok y =>
      obtain ⟨o, x'⟩ := y
      refine (alone_ok (get_mid pre x rest) (r := .obs (.many o)) (x' := x')
        (by simp [exec_op, Block.observe, h]) (set_mid pre x x' rest)).trans ?_
      have := ih (pre ++ [x']) (out ++ o)
      simp only [List.length_append, List.length_cons, List.length_nil, Nat.zero_add] at this
      refine this.trans ?_
      cases Batch.flush B rest with
      | panic => rfl
      | ok z => simp

theorem take_alone : ∀ (rest pre : List B.State) (gs : List (List K)) (out : List (K × V)) (ks : List K),
    gs.length = rest.length →
    (takeProg pre.length gs out ks).alone (.ofGet B G) (pre ++ rest) =
      (do let (o, k, rest') ← Associative.takeMultipleLoop B rest gs
          .ok (.obs (.keyed (out ++ o) (ks ++ k)), pre ++ rest')) := by
  intro rest
  induction rest with
  | nil =>
    intro pre gs out ks hl
    cases gs with
    | nil => simp [takeProg, Prog.alone, Associative.takeMultipleLoop]
    | cons g gs => simp at hl
  | cons x rest ih =>
    intro pre gs out ks hl
    cases gs with
    | nil => simp at hl
    | cons g gs =>
      simp only [List.length_cons, Nat.add_right_cancel_iff] at hl
      simp only [takeProg, Associative.takeMultipleLoop]
      split
      · have := ih (pre ++ [x]) gs out ks hl
        simp only [List.length_append, List.length_cons, List.length_nil, Nat.zero_add,
          List.append_assoc, List.cons_append, List.nil_append] at this
        rw [this]
        cases Associative.takeMultipleLoop B rest gs with
        | panic => rfl
        | ok z => simp
      · cases h : B.takeMultiple x g with
        | panic => exact alone_panic (get_mid pre x rest) (by simp [exec_op, Block.observe, h])
        | ok y =>
          obtain ⟨o, k, x'⟩ := y
          refine (alone_ok (get_mid pre x rest) (r := .obs (.keyed o k)) (x' := x')
            (by simp [exec_op, Block.observe, h]) (set_mid pre x x' rest)).trans ?_
          have := ih (pre ++ [x']) gs (out ++ o) (ks ++ k) hl
          simp only [List.length_append, List.length_cons, List.length_nil, Nat.zero_add] at this
          refine this.trans ?_
          cases Associative.takeMultipleLoop B rest gs with
          | panic => rfl
          | ok z => simp

theorem push_alone : ∀ (rest pre : List B.State) (gs : List (List (K × V))) (out : List (K × V)),
    gs.length = rest.length →
    (pushProg pre.length gs out).alone (.ofGet B G) (pre ++ rest) =
      (do let (o, rest') ← Associative.pushLoop B rest gs
          .ok (.obs (.many (out ++ o)), pre ++ rest')) := by
  intro rest
  induction rest with
  | nil =>
    intro pre gs out hl
    cases gs with
    | nil => simp [pushProg, Prog.alone, Associative.pushLoop]
    | cons g gs => simp at hl
  | cons x rest ih =>
    intro pre gs out hl
    cases gs with
    | nil => simp at hl
    | cons g gs =>
      simp only [List.length_cons, Nat.add_right_cancel_iff] at hl
      simp only [pushProg, Associative.pushLoop]
      cases h : B.push x g with
      | panic => exact alone_panic (get_mid pre x rest) (by simp [exec_op, Block.observe, h])
      | ok y =>
        obtain ⟨o, x'⟩ := y
        refine (alone_ok (get_mid pre x rest) (r := .obs (.many o)) (x' := x')
          (by simp [exec_op, Block.observe, h]) (set_mid pre x x' rest)).trans ?_
        have := ih (pre ++ [x']) gs (out ++ o) hl
        simp only [List.length_append, List.length_cons, List.length_nil, Nat.zero_add] at this
        refine this.trans ?_
        cases Associative.pushLoop B rest gs with
        | panic => rfl
        | ok z => simp

theorem sizes_alone (next : List Nat → Prog K V) : ∀ (rest pre : List B.State) (sizes : List Nat),
    (sizesProg next (List.range' pre.length rest.length) sizes).alone (.ofGet B G) (pre ++ rest) =
      (next (sizes ++ rest.map B.size)).alone (.ofGet B G) (pre ++ rest) := by
  intro rest
  induction rest with
  | nil => intro pre sizes; simp [sizesProg]
  | cons x rest ih =>
    intro pre sizes
    rw [List.length_cons, List.range'_succ, sizesProg]
    refine (alone_ok (get_mid pre x rest) (r := .num (B.size x)) (x' := x) rfl (set_mid pre x x rest)).trans ?_
    have := ih (pre ++ [x]) (sizes ++ [B.size x])
    simp only [List.length_append, List.length_cons, List.length_nil, Nat.zero_add] at this
    refine this.trans ?_
    simp

theorem pop_alone (target : Nat) : ∀ (buckets : List (Nat × Nat)) (s : List B.State) (out : List (K × V)),
    (popProg target buckets out).alone (.ofGet B G) s =
      (do let (o, s') ← Associative.popLoop B target buckets s; .ok (.obs (.many (out ++ o)), s')) := by
  intro buckets
  induction buckets with
  | nil => intro s out; simp [popProg, Prog.alone, Associative.popLoop]
  | cons b rest ih =>
    intro s out
    obtain ⟨bs, bi⟩ := b
    simp only [popProg, Associative.popLoop]
    cases hx : s[bi]? with
    | none =>
      cases h : Res.sub bs target with
      | panic => rfl
      | ok n =>
        show (do let x ← Res.unwrap s[bi]?; _) = _
        rw [hx]; rfl
    | some x =>
      simp only [Res.unwrap_some, Res.ok_bind]
      cases h : Res.sub bs target with
      | panic => rfl
      | ok n =>
        simp only [Res.ok_bind]
        cases hp : B.pop x n with
        | panic => exact alone_panic hx (by simp [exec_op, Block.observe, hp])
        | ok y =>
          obtain ⟨o, x'⟩ := y
          refine (alone_ok hx (r := .obs (.many o)) (x' := x')
            (by simp [exec_op, Block.observe, hp]) rfl).trans ?_
          refine (ih (s.set bi x') (out ++ o)).trans ?_
          simp only [Res.ok_bind]
          cases Associative.popLoop B target rest (s.set bi x') with
          | panic => rfl
          | ok z => simp

theorem distribute_length {E : Type} (hash : K → Nat) (key : E → K) (n : Nat) : ∀ (l : List E)
    (g G : List (List E)), Associative.distribute hash key n l g = .ok G → G.length = g.length
  | [], g, G, h => by cases h; rfl
  | e :: l, g, G, h => by
    rw [Associative.distribute] at h
    cases hs : Associative.set hash n (key e) with
    | panic => rw [hs] at h; cases h
    | ok i =>
      rw [hs] at h
      rw [distribute_length hash key n l _ G h]; simp

theorem key_alone {hash : K → Nat} {s : List B.State} {k : K} {c : SCall K V} :
    (keyProg hash s.length k c).alone (.ofGet B G) s =
      (do let i ← Associative.set hash s.length k
          let x ← Res.unwrap s[i]?
          let (r, x') ← (Container.ofGet B G).exec c x
          .ok (r, s.set i x')) := by
  unfold keyProg
  cases Associative.set hash s.length k with
  | panic => rfl
  | ok i => rfl

/-- With nobody else, a call does what it does in the model of an `Associative` that is not shared. -/
theorem alone_eq (hash : K → Nat) (s : List B.State) (c : SCall K V) :
    (prog hash s.length c).alone (.ofGet B G) s =
      (Container.ofGet (associative hash B) (associativeGet hash G)).exec c s := by
  cases c with
  | capacity =>
    have := sum_alone (G := G) .capacity B.capacity (fun _ => rfl) s [] 0
    simp only [List.length_nil, List.nil_append, Nat.zero_add] at this
    simp only [prog, List.range_eq_range']
    exact this
  | size =>
    have := sum_alone (G := G) .size B.size (fun _ => rfl) s [] 0
    simp only [List.length_nil, List.nil_append, Nat.zero_add] at this
    simp only [prog, List.range_eq_range']
    exact this
  | get k =>
    refine key_alone.trans ?_
    simp only [Container.exec, Container.ofGet, associativeGet, associativeAccess]
    cases Associative.set hash s.length k with
    | panic => rfl
    | ok i =>
      cases hx : s[i]? with
      | none => simp only [Res.ok_bind, hx, Res.unwrap]; rfl
      | some x =>
        simp only [Res.ok_bind, hx, Res.unwrap_some]
        cases G.get x k id with
        | panic => rfl
        | ok y => rfl
  | getMut k =>
    refine key_alone.trans ?_
    simp only [Container.exec, Container.ofGet, associativeGet, associativeAccess]
    cases Associative.set hash s.length k with
    | panic => rfl
    | ok i =>
      cases hx : s[i]? with
      | none => simp only [Res.ok_bind, hx, Res.unwrap]; rfl
      | some x =>
        simp only [Res.ok_bind, hx, Res.unwrap_some]
        cases G.getMut x k id with
        | panic => rfl
        | ok y => rfl
  | op o =>
    cases o with
    | contains k =>
      refine key_alone.trans ?_
      simp only [Container.exec, Container.ofGet, associative, Block.observe]
      cases Associative.set hash s.length k with
      | panic => rfl
      | ok i =>
        cases hx : s[i]? with
        | none => simp [hx, Res.unwrap]
        | some x =>
          simp only [Res.ok_bind, hx, Res.unwrap_some]
          cases B.contains x k with
          | panic => rfl
          | ok y => rfl
    | take k =>
      refine key_alone.trans ?_
      simp only [Container.exec, Container.ofGet, associative, Block.observe]
      cases Associative.set hash s.length k with
      | panic => rfl
      | ok i =>
        cases hx : s[i]? with
        | none => simp [hx, Res.unwrap]
        | some x =>
          simp only [Res.ok_bind, hx, Res.unwrap_some]
          cases B.take x k with
          | panic => rfl
          | ok y => rfl
    | takeMultiple ks =>
      simp only [prog]
      show _ = (do let (r, s') ← (associative hash B).observe s (.takeMultiple ks); (pure (SObs.obs r, s') : Res (SObs K V × List B.State)))
      simp only [Block.observe, associative, Associative.takeMultiple]
      cases hd : Associative.distribute hash id s.length ks (List.replicate s.length []) with
      | panic => rfl
      | ok g =>
        have hl := distribute_length _ _ _ _ _ _ hd
        have := take_alone (G := G) s [] g [] [] (by simpa using hl)
        simp only [List.length_nil, List.nil_append] at this
        refine this.trans ?_
        simp only [Res.ok_bind]
        cases Associative.takeMultipleLoop B s g with
        | panic => rfl
        | ok z => rfl
    | push l =>
      simp only [prog]
      show _ = (do let (r, s') ← (associative hash B).observe s (.push l); (pure (SObs.obs r, s') : Res (SObs K V × List B.State)))
      simp only [Block.observe, associative, Associative.push]
      cases hd : Associative.distribute hash Prod.fst s.length l (List.replicate s.length []) with
      | panic => rfl
      | ok g =>
        have hl := distribute_length _ _ _ _ _ _ hd
        have := push_alone (G := G) s [] g [] (by simpa using hl)
        simp only [List.length_nil, List.nil_append] at this
        refine this.trans ?_
        simp only [Res.ok_bind]
        cases Associative.pushLoop B s g with
        | panic => rfl
        | ok z => rfl
    | flush =>
      simp only [prog, List.range_eq_range']
      show _ = (do let (r, s') ← (associative hash B).observe s .flush; (pure (SObs.obs r, s') : Res (SObs K V × List B.State)))
      simp only [Block.observe, associative]
      have := flush_alone (G := G) s [] []
      simp only [List.length_nil, List.nil_append] at this
      refine this.trans ?_
      cases Batch.flush B s with
      | panic => rfl
      | ok z => rfl
    | pop m =>
      simp only [prog, List.range_eq_range']
      show _ = (do let (r, s') ← (associative hash B).observe s (.pop m); (pure (SObs.obs r, s') : Res (SObs K V × List B.State)))
      simp only [Block.observe, associative, Associative.pop]
      have := sizes_alone (G := G) (popWith m) s [] []
      simp only [List.length_nil, List.nil_append] at this
      refine this.trans ?_
      simp only [popWith, List.length_map]
      split
      · rfl
      · split
        · have := flush_alone (G := G) s [] []
          simp only [List.length_nil, List.nil_append] at this
          rw [List.range_eq_range']
          refine this.trans ?_
          cases Batch.flush B s with
          | panic => rfl
          | ok z => rfl
        · cases Associative.targetLoop m ((List.range s.length).zip (s.map B.size)) (s.map B.size).sum with
          | panic => rfl
          | ok y =>
            refine (pop_alone (G := G) y.1 y.2 s []).trans ?_
            simp only [List.nil_append, Res.ok_bind]
            cases Associative.popLoop B y.1 y.2 s with
            | panic => rfl
            | ok z => rfl

end


/-! ## What a program gives and collects -/

/-- The elements a call hands to the container. -/
def given : SCall K V → List (K × V)
  | .op o => o.given
  | _ => []

/-- The elements in a result. -/
def elements : SObs K V → List (K × V)
  | .obs o => o.elements
  | _ => []

/-- The batches pushed satisfy `Pre`. -/
def Ok (Pre : List (K × V) → Prop) : SCall K V → Prop
  | .op o => o.Ok Pre
  | _ => True

/-- The result has the type the method returns. -/
def Fits : SCall K V → SObs K V → Prop
  | .capacity, .num _ => True
  | .size, .num _ => True
  | .op (.contains _), .obs (.bool _) => True
  | .op (.take _), .obs (.opt _) => True
  | .op (.takeMultiple _), .obs (.keyed _ _) => True
  | .op (.pop _), .obs (.many _) => True
  | .op (.push _), .obs (.many _) => True
  | .op .flush, .obs (.many _) => True
  | .get _, .cell _ => True
  | .getMut _, .cell _ => True
  | _, _ => False

/-- A set of a lawful container, and a call on it. -/
theorem exec_spec {B : Block K V} {G : GetOps B} {I ec Pre} {PreF : (V → V) → Prop}
    (h : Lawful B I ec Pre) (g : GetLawful B G I ec PreF) (hid : PreF id) {d : SCall K V}
    (hd : Ok Pre d) {x : B.State} (hx : I x) :
    ∃ r x', (Container.ofGet B G).exec d x = .ok (r, x') ∧ I x' ∧ B.capacity x' = B.capacity x ∧
      (ec x' ++ elements r).Perm (ec x ++ given d) ∧ Fits d r := by
  have access : ∀ (op : B.State → K → (V → V) → Res (Option V × B.State)), AccessLaw B op I ec PreF →
      ∀ k, ∃ o x', op x k id = .ok (o, x') ∧ I x' ∧ B.capacity x' = B.capacity x ∧ (ec x').Perm (ec x) := by
    intro op hop k
    obtain ⟨o, x', h1, h2, h3, h4⟩ := hop x k id hx hid
    refine ⟨o, x', h1, h2, h3, ?_⟩
    cases o with
    | none => exact h4.2
    | some v =>
      obtain ⟨rest, h5, h6⟩ := h4
      exact h6.trans h5.symm
  cases d with
  | capacity => exact ⟨_, _, rfl, hx, rfl, by simp [elements, given], trivial⟩
  | size => exact ⟨_, _, rfl, hx, rfl, by simp [elements, given], trivial⟩
  | get k =>
    obtain ⟨o, x', h1, h2, h3, h4⟩ := access G.get g.get k
    exact ⟨.cell o, x', by simp only [Container.exec, Container.ofGet, h1, Res.ok_bind]; rfl, h2, h3,
      by simpa [elements, given] using h4, trivial⟩
  | getMut k =>
    obtain ⟨o, x', h1, h2, h3, h4⟩ := access G.getMut g.getMut k
    exact ⟨.cell o, x', by simp only [Container.exec, Container.ofGet, h1, Res.ok_bind]; rfl, h2, h3,
      by simpa [elements, given] using h4, trivial⟩
  | op o =>
    obtain ⟨out, x', h1, h2, h3, h4⟩ := h.step x hx o hd
    rw [Block.step_eq_observe] at h1
    cases ho : B.observe x o with
    | panic => rw [ho] at h1; cases h1
    | ok y =>
      obtain ⟨r, x''⟩ := y
      rw [ho] at h1
      simp only [Res.ok_bind, Res.pure_eq, Res.ok.injEq, Prod.mk.injEq] at h1
      obtain ⟨rfl, rfl⟩ := h1
      refine ⟨.obs r, x'', by rw [exec_op, ho]; rfl, h2, h3, h4, ?_⟩
      cases o <;> simp only [Block.observe] at ho
      all_goals
        first
        | (cases hb : B.contains x ‹_› with
           | panic => rw [hb] at ho; cases ho
           | ok z => rw [hb] at ho; cases ho; trivial)
        | (cases hb : B.take x ‹_› with
           | panic => rw [hb] at ho; cases ho
           | ok z => rw [hb] at ho; cases ho; trivial)
        | (cases hb : B.takeMultiple x ‹_› with
           | panic => rw [hb] at ho; cases ho
           | ok z => rw [hb] at ho; cases ho; trivial)
        | (cases hb : B.pop x ‹_› with
           | panic => rw [hb] at ho; cases ho
           | ok z => rw [hb] at ho; cases ho; trivial)
        | (cases hb : B.push x ‹_› with
           | panic => rw [hb] at ho; cases ho
           | ok z => rw [hb] at ho; cases ho; trivial)
        | (cases hb : B.flush x with
           | panic => rw [hb] at ho; cases ho
           | ok z => rw [hb] at ho; cases ho; trivial)

/-- Elements are pushed to the set of their key, and the batches pushed satisfy `Pre`. -/
def Prog.Sound (hash : K → Nat) (n : Nat) (Pre : List (K × V) → Prop) : Prog K V → Prop
  | .ret _ => True
  | .panic => True
  | .step j d next => (∀ e ∈ given d, hash e.1 % n = j) ∧ Ok Pre d ∧ ∀ r, (next r).Sound hash n Pre

/-- The program gives away `todo` and returns what the sets returned, `collected` being what they returned
so far. -/
def Prog.Balanced : Prog K V → List (K × V) → List (K × V) → Prop
  | .ret r, todo, collected => todo = [] ∧ (elements r).Perm collected
  | .panic, _, _ => True
  | .step _ d next, todo, collected =>
    ∃ rest, todo.Perm (given d ++ rest) ∧ ∀ r, (next r).Balanced rest (collected ++ elements r)

/-- The program does not panic if the sets do not. -/
def Prog.Safe (n : Nat) : Prog K V → Prop
  | .ret _ => True
  | .panic => False
  | .step j d next => j < n ∧ ∀ r, Fits d r → (next r).Safe n

section
variable {hash : K → Nat} {n : Nat} {Pre : List (K × V) → Prop}

theorem sum_sound (c : SCall K V) (hc : given c = []) (hp : Ok Pre c) : ∀ (js : List Nat) (acc : Nat),
    (sumProg c js acc).Sound hash n Pre
  | [], _ => trivial
  | j :: js, acc => by
    refine ⟨by simp [hc], hp, fun r => ?_⟩
    cases r with
    | num x => exact sum_sound c hc hp js _
    | _ => trivial

theorem sum_balanced (c : SCall K V) (hc : given c = []) : ∀ (js : List Nat) (acc : Nat),
    (sumProg c js acc).Balanced [] []
  | [], _ => ⟨rfl, List.Perm.refl _⟩
  | j :: js, acc => by
    refine ⟨[], by simp [hc], fun r => ?_⟩
    cases r with
    | num x => exact sum_balanced c hc js _
    | _ => trivial

theorem sum_safe (c : SCall K V) (hc : ∀ r, Fits c r → ∃ x, r = .num x) : ∀ (js : List Nat) (acc : Nat),
    (∀ j ∈ js, j < n) → (sumProg c js acc).Safe n
  | [], _, _ => trivial
  | j :: js, acc, h => by
    refine ⟨h j (by simp), fun r hr => ?_⟩
    obtain ⟨x, rfl⟩ := hc r hr
    exact sum_safe c hc js _ fun i hi => h i (by simp [hi])

theorem flush_sound : ∀ (js : List Nat) (out : List (K × V)), (flushProg js out).Sound hash n Pre
  | [], _ => trivial
  | j :: js, out => by
    refine ⟨by simp [given, Op.given], trivial, fun r => ?_⟩
    cases r with
    | obs o =>
      cases o with
      | many o => exact flush_sound js _
      | _ => trivial
    | _ => trivial

theorem flush_balanced : ∀ (js : List Nat) (out : List (K × V)), (flushProg js out).Balanced [] out
  | [], _ => ⟨rfl, List.Perm.refl _⟩
  | j :: js, out => by
    refine ⟨[], by simp [given, Op.given], fun r => ?_⟩
    cases r with
    | obs o =>
      cases o with
      | many o => exact flush_balanced js _
      | _ => trivial
    | _ => trivial

theorem flush_safe : ∀ (js : List Nat) (out : List (K × V)), (∀ j ∈ js, j < n) → (flushProg js out).Safe n
  | [], _, _ => trivial
  | j :: js, out, h => by
    refine ⟨h j (by simp), fun r hr => ?_⟩
    cases r with
    | obs o =>
      cases o with
      | many o => exact flush_safe js _ fun i hi => h i (by simp [hi])
      | _ => exact hr
    | _ => exact hr

theorem take_sound : ∀ (gs : List (List K)) (j : Nat) (out : List (K × V)) (ks : List K),
    (takeProg j gs out ks).Sound hash n Pre
  | [], _, _, _ => trivial
  | g :: gs, j, out, ks => by
    unfold takeProg
    split
    · exact take_sound gs _ _ _
    · refine ⟨by simp [given, Op.given], trivial, fun r => ?_⟩
      cases r with
      | obs o =>
        cases o with
        | keyed o k => exact take_sound gs _ _ _
        | _ => trivial
      | _ => trivial

theorem take_balanced : ∀ (gs : List (List K)) (j : Nat) (out : List (K × V)) (ks : List K),
    (takeProg j gs out ks).Balanced [] out
  | [], _, _, _ => ⟨rfl, List.Perm.refl _⟩
  | g :: gs, j, out, ks => by
    unfold takeProg
    split
    · exact take_balanced gs _ _ _
    · refine ⟨[], by simp [given, Op.given], fun r => ?_⟩
      cases r with
      | obs o =>
        cases o with
        | keyed o k => exact take_balanced gs _ _ _
        | _ => trivial
      | _ => trivial

theorem take_safe : ∀ (gs : List (List K)) (j : Nat) (out : List (K × V)) (ks : List K),
    j + gs.length ≤ n → (takeProg j gs out ks).Safe n
  | [], _, _, _, _ => trivial
  | g :: gs, j, out, ks, h => by
    simp only [List.length_cons] at h
    unfold takeProg
    split
    · exact take_safe gs _ _ _ (by omega)
    · refine ⟨by omega, fun r hr => ?_⟩
      cases r with
      | obs o =>
        cases o with
        | keyed o k => exact take_safe gs _ _ _ (by omega)
        | _ => exact hr
      | _ => exact hr

theorem push_sound : ∀ (gs : List (List (K × V))) (j : Nat) (out : List (K × V)),
    (∀ i g, gs[i]? = some g → Pre g ∧ ∀ e ∈ g, hash e.1 % n = j + i) →
    (pushProg j gs out).Sound hash n Pre
  | [], _, _, _ => trivial
  | g :: gs, j, out, h => by
    refine ⟨by simpa [given, Op.given] using (h 0 g (by simp)).2, (h 0 g (by simp)).1, fun r => ?_⟩
    cases r with
    | obs o =>
      cases o with
      | many o =>
        refine push_sound gs _ _ fun i g' hi => ?_
        have := h (i + 1) g' (by simpa using hi)
        refine ⟨this.1, fun e he => ?_⟩
        have := this.2 e he
        omega
      | _ => trivial
    | _ => trivial

theorem push_balanced : ∀ (gs : List (List (K × V))) (j : Nat) (out todo : List (K × V)),
    todo.Perm gs.flatten → (pushProg j gs out).Balanced todo out
  | [], _, _, todo, h => ⟨by simpa using h, List.Perm.refl _⟩
  | g :: gs, j, out, todo, h => by
    refine ⟨gs.flatten, by simpa [given, Op.given] using h, fun r => ?_⟩
    cases r with
    | obs o =>
      cases o with
      | many o => exact push_balanced gs _ _ _ (List.Perm.refl _)
      | _ => trivial
    | _ => trivial

theorem push_safe : ∀ (gs : List (List (K × V))) (j : Nat) (out : List (K × V)),
    j + gs.length ≤ n → (pushProg j gs out).Safe n
  | [], _, _, _ => trivial
  | g :: gs, j, out, h => by
    simp only [List.length_cons] at h
    refine ⟨by omega, fun r hr => ?_⟩
    cases r with
    | obs o =>
      cases o with
      | many o => exact push_safe gs _ _ (by omega)
      | _ => exact hr
    | _ => exact hr

theorem pop_sound (t : Nat) : ∀ (bs : List (Nat × Nat)) (out : List (K × V)),
    (popProg t bs out).Sound hash n Pre
  | [], _ => trivial
  | (bs, bi) :: rest, out => by
    unfold popProg
    cases Res.sub bs t with
    | panic => trivial
    | ok m =>
      refine ⟨by simp [given, Op.given], trivial, fun r => ?_⟩
      cases r with
      | obs o =>
        cases o with
        | many o => exact pop_sound t rest _
        | _ => trivial
      | _ => trivial

theorem pop_balanced (t : Nat) : ∀ (bs : List (Nat × Nat)) (out : List (K × V)),
    (popProg t bs out).Balanced [] out
  | [], _ => ⟨rfl, List.Perm.refl _⟩
  | (bs, bi) :: rest, out => by
    unfold popProg
    cases Res.sub bs t with
    | panic => trivial
    | ok m =>
      refine ⟨[], by simp [given, Op.given], fun r => ?_⟩
      cases r with
      | obs o =>
        cases o with
        | many o => exact pop_balanced t rest _
        | _ => trivial
      | _ => trivial

theorem popWith_sound (m : Nat) (sizes : List Nat) :
    (popWith m sizes : Prog K V).Sound hash n Pre := by
  unfold popWith
  dsimp only
  split
  · trivial
  · split
    · exact flush_sound _ _
    · split
      · trivial
      · exact pop_sound _ _ _

theorem popWith_balanced (m : Nat) (sizes : List Nat) :
    (popWith m sizes : Prog K V).Balanced [] [] := by
  unfold popWith
  dsimp only
  split
  · exact ⟨rfl, List.Perm.refl _⟩
  · split
    · exact flush_balanced _ _
    · split
      · trivial
      · exact pop_balanced _ _ _

theorem sizes_sound {next : List Nat → Prog K V} (h : ∀ l, (next l).Sound hash n Pre) :
    ∀ (js sizes : List Nat), (sizesProg next js sizes).Sound hash n Pre
  | [], sizes => h sizes
  | j :: js, sizes => by
    refine ⟨by simp [given], trivial, fun r => ?_⟩
    cases r with
    | num x => exact sizes_sound h js _
    | _ => trivial

theorem sizes_balanced {next : List Nat → Prog K V} (h : ∀ l, (next l).Balanced [] []) :
    ∀ (js sizes : List Nat), (sizesProg next js sizes).Balanced [] []
  | [], sizes => h sizes
  | j :: js, sizes => by
    refine ⟨[], by simp [given], fun r => ?_⟩
    cases r with
    | num x => exact sizes_balanced h js _
    | _ => trivial

theorem key_sound (k : K) (c : SCall K V) (hc : given c = []) (hp : Ok Pre c) :
    (keyProg hash n k c).Sound hash n Pre := by
  unfold keyProg
  cases Associative.set hash n k with
  | panic => trivial
  | ok i => exact ⟨by simp [hc], hp, fun _ => trivial⟩

theorem key_balanced (k : K) (c : SCall K V) (hc : given c = []) :
    (keyProg hash n k c).Balanced [] [] := by
  unfold keyProg
  cases Associative.set hash n k with
  | panic => trivial
  | ok i => exact ⟨[], by simp [hc], fun _ => ⟨rfl, by simp⟩⟩

theorem key_safe (hn : 0 < n) (k : K) (c : SCall K V) : (keyProg hash n k c).Safe n := by
  unfold keyProg
  have : Associative.set hash n k = .ok (hash k % n) := by simp [Associative.set, Nat.ne_of_gt hn]
  rw [this]
  exact ⟨Nat.mod_lt _ hn, fun _ _ => trivial⟩

theorem prog_sound (hn : 0 < n) (hPre : ∀ l p, Pre l → Pre (l.filter p)) (c : SCall K V)
    (hc : Ok Pre c) : (prog hash n c).Sound hash n Pre := by
  cases c with
  | capacity => exact sum_sound .capacity rfl (show Ok Pre .capacity from trivial) _ _
  | size => exact sum_sound .size rfl (show Ok Pre .size from trivial) _ _
  | get k => exact key_sound _ _ rfl trivial
  | getMut k => exact key_sound _ _ rfl trivial
  | op o =>
    cases o with
    | contains k => exact key_sound _ _ rfl trivial
    | take k => exact key_sound _ _ rfl trivial
    | flush => exact flush_sound _ _
    | pop m => exact sizes_sound (popWith_sound m) _ _
    | takeMultiple ks =>
      obtain ⟨G, h1, -⟩ := Associative.distribute_replicate hash id n hn ks
      simp only [prog, h1]
      exact take_sound _ _ _ _
    | push l =>
      obtain ⟨G, h1, h2, h3, h4⟩ := Associative.distribute_replicate hash Prod.fst n hn l
      simp only [prog, h1]
      refine push_sound _ _ _ fun i g hg => ?_
      have := h4 i g hg
      subst this
      refine ⟨hPre l _ hc, fun e he => ?_⟩
      simpa using (List.mem_filter.1 he).2

theorem prog_balanced (hn : 0 < n) (c : SCall K V) : (prog hash n c).Balanced (given c) [] := by
  cases c with
  | capacity => exact sum_balanced _ rfl _ _
  | size => exact sum_balanced _ rfl _ _
  | get k => exact key_balanced _ _ rfl
  | getMut k => exact key_balanced _ _ rfl
  | op o =>
    cases o with
    | contains k => exact key_balanced _ _ rfl
    | take k => exact key_balanced _ _ rfl
    | flush => exact flush_balanced _ _
    | pop m => exact sizes_balanced (popWith_balanced m) _ _
    | takeMultiple ks =>
      obtain ⟨G, h1, -⟩ := Associative.distribute_replicate hash id n hn ks
      simp only [prog, h1]
      exact take_balanced _ _ _ _
    | push l =>
      obtain ⟨G, h1, h2, h3, h4⟩ := Associative.distribute_replicate hash Prod.fst n hn l
      simp only [prog, h1]
      exact push_balanced _ _ _ _ h3.symm

/-- A call that is not `pop`. -/
def NotPop : SCall K V → Prop
  | .op o => o.NotPop
  | _ => True

theorem prog_safe (hn : 0 < n) (c : SCall K V) (hc : NotPop c) : (prog hash n c).Safe n := by
  cases c with
  | capacity =>
    refine sum_safe _ (fun r hr => ?_) _ _ (by simp)
    cases r <;> first | exact ⟨_, rfl⟩ | exact hr.elim
  | size =>
    refine sum_safe _ (fun r hr => ?_) _ _ (by simp)
    cases r <;> first | exact ⟨_, rfl⟩ | exact hr.elim
  | get k => exact key_safe hn _ _
  | getMut k => exact key_safe hn _ _
  | op o =>
    cases o with
    | contains k => exact key_safe hn _ _
    | take k => exact key_safe hn _ _
    | flush => exact flush_safe _ _ (by simp)
    | pop m => exact hc.elim
    | takeMultiple ks =>
      obtain ⟨G, h1, h2, -⟩ := Associative.distribute_replicate hash id n hn ks
      simp only [prog, h1]
      exact take_safe _ _ _ _ (by omega)
    | push l =>
      obtain ⟨G, h1, h2, h3, h4⟩ := Associative.distribute_replicate hash Prod.fst n hn l
      simp only [prog, h1]
      exact push_safe _ _ _ (by omega)

end

/-! ## Invariant -/

/-- Elements handed over by the calls made. -/
def givenIn : List (AEv K V) → List (K × V)
  | [] => []
  | .called _ c :: l => given c ++ givenIn l
  | _ :: l => givenIn l

/-- Elements handed back by the calls that returned. -/
def backIn : List (AEv K V) → List (K × V)
  | [] => []
  | .returned _ _ _ r :: l => elements r ++ backIn l
  | _ :: l => backIn l

theorem givenIn_append (l l' : List (AEv K V)) : givenIn (l ++ l') = givenIn l ++ givenIn l' := by
  induction l with
  | nil => rfl
  | cons e l ih => cases e <;> simp [givenIn, ih]

theorem backIn_append (l l' : List (AEv K V)) : backIn (l ++ l') = backIn l ++ backIn l' := by
  induction l with
  | nil => rfl
  | cons e l ih => cases e <;> simp [backIn, ih]

/-- What the sets returned to a call. -/
def outs (done : List (Part K V)) : List (K × V) := done.flatMap fun x => elements x.res

/-- A thread with the elements its call has yet to give. -/
def TOk (hash : K → Nat) (n : Nat) (Pre : List (K × V) → Prop) (t : Pc K V × List (K × V)) : Prop :=
  match t.1 with
  | .idle => t.2 = []
  | .run c done p => p.Sound hash n Pre ∧ p.Balanced t.2 (outs done) ∧ (NotPop c → p.Safe n)
  | .dead c _ => ¬ NotPop c

/-- The elements in the hands of a thread. -/
def hand (t : Pc K V × List (K × V)) : List (K × V) :=
  match t.1 with
  | .idle => t.2
  | .run _ done _ => outs done ++ t.2
  | .dead _ done => outs done ++ t.2

theorem flatMap_set {α β : Type} (f : α → List β) {t : α} (t' : α) : ∀ {l : List α} {i : Nat}, l[i]? = some t →
    ∃ a b, l.flatMap f = a ++ (f t ++ b) ∧ (l.set i t').flatMap f = a ++ (f t' ++ b)
  | x :: l, 0, h => by
    simp only [List.getElem?_cons_zero, Option.some.injEq] at h
    subst h
    exact ⟨[], l.flatMap f, by simp, by simp⟩
  | x :: l, i + 1, h => by
    obtain ⟨a, b, h1, h2⟩ := flatMap_set f t' (l := l) (i := i) (by simpa using h)
    exact ⟨f x ++ a, b, by simp [h1], by simp [h2]⟩

/-- The invariant of a run. -/
structure AInv (hash : K → Nat) (B : Block K V) (I : B.State → Prop) (ec : B.State → List (K × V))
    (Pre : List (K × V) → Prop) (s₀ : List B.State) (l : List (AEv K V)) (s : AState K V B.State) : Prop where
  inv : Associative.Inv hash I ec s.sets
  caps : s.sets.map B.capacity = s₀.map B.capacity
  bal : ∃ ts : List (Pc K V × List (K × V)), ts.map Prod.fst = s.threads ∧
    (∀ t ∈ ts, TOk hash s₀.length Pre t) ∧
    (s.sets.flatMap ec ++ (backIn l ++ ts.flatMap hand)).Perm (s₀.flatMap ec ++ givenIn l)
  pops : ∀ i c done, .panicked i c done ∈ l → ¬ NotPop c

theorem new_ainv {hash : K → Nat} {B : Block K V} {I : B.State → Prop} {ec : B.State → List (K × V)}
    {Pre : List (K × V) → Prop} {s₀ : List B.State} (h : Associative.Inv hash I ec s₀) (n : Nat) :
    AInv hash B I ec Pre s₀ [] (.new s₀ n) where
  inv := h
  caps := rfl
  bal := ⟨List.replicate n (.idle, []), by simp [AState.new], fun t ht => by
      rw [List.eq_of_mem_replicate ht]; rfl, by
    have : (List.replicate n ((.idle, []) : Pc K V × List (K × V))).flatMap hand = [] :=
      List.flatMap_eq_nil_iff.2 fun t ht => by rw [List.eq_of_mem_replicate ht]; rfl
    simp [AState.new, backIn, givenIn, this]⟩
  pops := by simp

theorem part_none {C : Container K V} {s : List C.block.State} {j : Nat} {d : SCall K V}
    (h : s[j]? = none) : (do let x ← Res.unwrap s[j]?; C.exec d x) = .panic := by rw [h]; rfl

theorem part_some {C : Container K V} {s : List C.block.State} {j : Nat} {d : SCall K V} {x : C.block.State}
    {z} (h : s[j]? = some x) (hz : C.exec d x = z) : (do let x ← Res.unwrap s[j]?; C.exec d x) = z := by
  rw [h, ← hz]; rfl

theorem inv_set {hash : K → Nat} {S : Type} {I : S → Prop} {ec : S → List (K × V)} {s : List S} {j : Nat} {x' : S}
    (h : Associative.Inv hash I ec s) (h2 : I x')
    (hp : ∀ e ∈ ec x', hash e.1 % s.length = j) : Associative.Inv hash I ec (s.set j x') := by
  refine ⟨by simpa using h.1, ?_⟩
  intro i' y hy
  simp only [List.length_set]
  rw [List.getElem?_set] at hy
  split at hy
  · rename_i hji
    subst hji
    split at hy
    · cases hy
      exact ⟨h2, fun e he => by have := hp e he; omega⟩
    · cases hy
  · exact h.2 i' y hy

theorem AInv.step {hash : K → Nat} {B : Block K V} {G : GetOps B} {I : B.State → Prop}
    {ec : B.State → List (K × V)} {Pre : List (K × V) → Prop} {PreF : (V → V) → Prop}
    (hB : Lawful B I ec Pre) (hG : GetLawful B G I ec PreF) (hid : PreF id)
    (hPre : ∀ l p, Pre l → Pre (l.filter p)) {s₀ : List B.State} {l : List (AEv K V)}
    {s s' : AState K V B.State} {i : Nat} {a : AAct K V} {e : AEv K V}
    (h : AInv hash B I ec Pre s₀ l s) (hs : astep hash (.ofGet B G) s i a = some (s', e))
    (hc : ∀ i c, e = .called i c → Ok Pre c) : AInv hash B I ec Pre s₀ (l ++ [e]) s' := by
  obtain ⟨ts, hts, hok, hbal⟩ := h.bal
  have hlen : s.sets.length = s₀.length := by simpa using congrArg List.length h.caps
  have hn : 0 < s₀.length := hlen ▸ h.inv.1
  have hget : ∀ p, s.threads[i]? = some p → ∃ g, ts[i]? = some (p, g) := by
    intro p hp
    rw [← hts, List.getElem?_map] at hp
    cases ht : ts[i]? with
    | none => rw [ht] at hp; cases hp
    | some t =>
      rw [ht] at hp
      cases hp
      exact ⟨t.2, rfl⟩
  have hset : ∀ p g, (ts.set i (p, g)).map Prod.fst = s.threads.set i p := by
    intro p g; rw [List.map_set, hts]
  have hokset : ∀ t, TOk hash s₀.length Pre t → ∀ t' ∈ ts.set i t, TOk hash s₀.length Pre t' := by
    intro t ht t' ht'
    rcases List.mem_or_eq_of_mem_set ht' with h1 | h1
    · exact hok t' h1
    · exact h1 ▸ ht
  simp only [astep] at hs
  split at hs
  · -- call
    rename_i c hp
    obtain ⟨g, hg⟩ := hget _ hp
    have hg0 : g = [] := hok _ (List.mem_of_getElem? hg)
    subst hg0
    cases hs
    have hcok := hc _ _ rfl
    refine ⟨h.inv, h.caps, ⟨ts.set i (.run c [] (prog hash s.sets.length c), given c), hset _ _, hokset _ ?_, ?_⟩, ?_⟩
    · rw [hlen]
      exact ⟨prog_sound hn hPre c hcok, prog_balanced hn c, prog_safe hn c⟩
    · obtain ⟨x, y, h1, h2⟩ := flatMap_set hand (.run c [] (prog hash s.sets.length c), given c) hg
      rw [h1] at hbal
      rw [h2, givenIn_append, backIn_append]
      simp only [hand, outs, List.flatMap_nil, List.nil_append, givenIn, backIn, List.append_nil] at hbal ⊢
      perms [hbal]
    · intro i' c' done hm
      simp only [List.mem_append, List.mem_singleton, reduceCtorEq, or_false] at hm
      exact h.pops _ _ _ hm
  · -- return
    rename_i c done r hp
    obtain ⟨g, hg⟩ := hget _ hp
    obtain ⟨-, ⟨rfl, hr⟩, -⟩ := hok _ (List.mem_of_getElem? hg)
    cases hs
    refine ⟨h.inv, h.caps, ⟨ts.set i (.idle, []), hset _ _, hokset _ rfl, ?_⟩, ?_⟩
    · obtain ⟨x, y, h1, h2⟩ := flatMap_set hand (.idle, []) hg
      rw [h1] at hbal
      rw [h2, givenIn_append, backIn_append]
      simp only [hand, List.nil_append, givenIn, backIn, List.append_nil] at hbal ⊢
      perms [hbal, hr]
    · intro i' c' done hm
      simp only [List.mem_append, List.mem_singleton, reduceCtorEq, or_false] at hm
      exact h.pops _ _ _ hm
  · -- panic of the program
    rename_i c done hp
    obtain ⟨g, hg⟩ := hget _ hp
    obtain ⟨-, -, hsafe⟩ := hok _ (List.mem_of_getElem? hg)
    cases hs
    have hnp : ¬ NotPop c := fun hc => hsafe hc
    refine ⟨h.inv, h.caps, ⟨ts.set i (.dead c done, g), hset _ _, hokset _ hnp, ?_⟩, ?_⟩
    · obtain ⟨x, y, h1, h2⟩ := flatMap_set hand (.dead c done, g) hg
      rw [h1] at hbal
      rw [h2, givenIn_append, backIn_append]
      simp only [hand, givenIn, backIn, List.append_nil] at hbal ⊢
      exact hbal
    · intro i' c' done hm
      simp only [List.mem_append, List.mem_singleton] at hm
      rcases hm with hm | hm
      · exact h.pops _ _ _ hm
      · cases hm; exact hnp
  · -- a call on a set
    rename_i c done j d next hp
    obtain ⟨g, hg⟩ := hget _ hp
    obtain ⟨⟨hroute, hdok, hnext⟩, ⟨rest, hrest, hbn⟩, hsafe⟩ := hok _ (List.mem_of_getElem? hg)
    cases hx : s.sets[j]? with
    | none =>
      rw [part_none hx] at hs
      cases hs
      have hnp : ¬ NotPop c := by
        intro hc
        have := (hsafe hc).1
        rw [List.getElem?_eq_none_iff] at hx
        omega
      refine ⟨h.inv, h.caps, ⟨ts.set i (.dead c done, g), hset _ _, hokset _ hnp, ?_⟩, ?_⟩
      · obtain ⟨x, y, h1, h2⟩ := flatMap_set hand (.dead c done, g) hg
        rw [h1] at hbal
        rw [h2, givenIn_append, backIn_append]
        simp only [hand, givenIn, backIn, List.append_nil] at hbal ⊢
        exact hbal
      · intro i' c' done hm
        simp only [List.mem_append, List.mem_singleton] at hm
        rcases hm with hm | hm
        · exact h.pops _ _ _ hm
        · cases hm; exact hnp
    | some x =>
      obtain ⟨hIx, hplace⟩ := h.inv.2 j x hx
      obtain ⟨r, x', h1, h2, h3, h4, h5⟩ := exec_spec hB hG hid hdok hIx
      rw [part_some hx h1] at hs
      cases hs
      refine ⟨inv_set h.inv h2 ?_, (Associative.map_set_same h3 hx).trans h.caps,
        ⟨ts.set i (.run c (done ++ [⟨j, d, r⟩]) (next r), rest), hset _ _, hokset _ ?_, ?_⟩, ?_⟩
      · intro e he
        rcases List.mem_append.1 (h4.subset (List.mem_append_left _ he)) with h6 | h6
        · simpa using hplace e h6
        · rw [hlen]; exact hroute e h6
      · refine ⟨hnext r, ?_, fun hc => (hsafe hc).2 r h5⟩
        have := hbn r
        simpa [outs] using this
      · obtain ⟨x1, y1, e1, e2⟩ := flatMap_set hand (.run c (done ++ [⟨j, d, r⟩]) (next r), rest) hg
        obtain ⟨a, b, e3, e4⟩ := flatMap_set ec x' hx
        rw [e1, e3] at hbal
        rw [e2, givenIn_append, backIn_append]
        refine (List.Perm.of_eq (congrArg (· ++ _) e4)).trans ?_
        simp only [hand, outs, List.flatMap_append, List.flatMap_cons, List.flatMap_nil, givenIn, backIn,
          List.append_nil] at hbal ⊢
        dsimp only at hrest
        perms [hbal, h4, hrest]
      · intro i' c' done hm
        simp only [List.mem_append, List.mem_singleton, reduceCtorEq, or_false] at hm
        exact h.pops _ _ _ hm
  · cases hs

theorem ARun.ainv {hash : K → Nat} {B : Block K V} {G : GetOps B} {I : B.State → Prop}
    {ec : B.State → List (K × V)} {Pre : List (K × V) → Prop} {PreF : (V → V) → Prop}
    (hB : Lawful B I ec Pre) (hG : GetLawful B G I ec PreF) (hid : PreF id)
    (hPre : ∀ l p, Pre l → Pre (l.filter p)) {s₀ : List B.State} (h0 : Associative.Inv hash I ec s₀) {n : Nat}
    {l : List (AEv K V)} {s : AState K V (Container.ofGet B G).block.State} (h : ARun hash (.ofGet B G) (.new s₀ n) l s)
    (hc : ∀ i c, .called i c ∈ l → Ok Pre c) : AInv hash B I ec Pre s₀ l s := by
  generalize hA : (AState.new s₀ n : AState K V (Container.ofGet B G).block.State) = A at h
  induction h with
  | nil => subst hA; exact new_ainv h0 n
  | snoc hr hs ih =>
    exact (ih fun i c hm => hc i c (by simp [hm])).step hB hG hid hPre hs
      fun i c he => hc i c (by simp [he])

/-! ## Traces -/

/-- The thread of an event that begins or ends a call. -/
def AEv.bound : AEv K V → Option Nat
  | .called i _ => some i
  | .part _ _ => none
  | .returned i _ _ _ => some i
  | .panicked i _ _ => some i

/-- The calls on the sets made by thread `i`. -/
def partsOf (i : Nat) : List (AEv K V) → List (Part K V)
  | [] => []
  | .part i' x :: l => if i' = i then x :: partsOf i l else partsOf i l
  | _ :: l => partsOf i l

theorem partsOf_append (i : Nat) (l l' : List (AEv K V)) :
    partsOf i (l ++ l') = partsOf i l ++ partsOf i l' := by
  induction l with
  | nil => rfl
  | cons e l ih => cases e <;> simp only [List.cons_append, partsOf, ih]; split <;> simp

/-- Having made the calls `done`, with their results, the program is at `p`. -/
def Follows : Prog K V → List (Part K V) → Prog K V → Prop
  | q, [], p => q = p
  | .step j d next, x :: xs, p => x.set = j ∧ x.call = d ∧ Follows (next x.res) xs p
  | _, _ :: _, _ => False

theorem follows_nil {q p : Prog K V} : Follows q [] p ↔ q = p := by cases q <;> rfl

theorem Follows.snoc {j : Nat} {d : SCall K V} {next : SObs K V → Prog K V} {r : SObs K V} :
    ∀ {done : List (Part K V)} {q : Prog K V}, Follows q done (.step j d next) →
    Follows q (done ++ [⟨j, d, r⟩]) (next r)
  | [], q, h => by
    cases follows_nil.1 h
    exact ⟨rfl, rfl, follows_nil.2 rfl⟩
  | x :: xs, .step j' d' next', h => ⟨h.1, h.2.1, h.2.2.snoc⟩
  | x :: xs, .ret r, h => h.elim
  | x :: xs, .panic, h => h.elim

section
variable {hash : K → Nat} {C : Container K V}

/-- What a step can be. -/
theorem astep_cases {s s' : AState K V C.block.State} {i : Nat} {a : AAct K V} {e : AEv K V}
    (h : astep hash C s i a = some (s', e)) :
    (∃ c, s.threads[i]? = some .idle ∧ e = .called i c ∧
      s' = ⟨s.sets, s.threads.set i (.run c [] (prog hash s.sets.length c))⟩) ∨
    (∃ c done r, s.threads[i]? = some (.run c done (.ret r)) ∧ e = .returned i c done r ∧
      s' = ⟨s.sets, s.threads.set i .idle⟩) ∨
    (∃ c done p, s.threads[i]? = some (.run c done p) ∧ e = .panicked i c done ∧
      s' = ⟨s.sets, s.threads.set i (.dead c done)⟩) ∨
    (∃ c done j d next x r x', s.threads[i]? = some (.run c done (.step j d next)) ∧
      s.sets[j]? = some x ∧ C.exec d x = .ok (r, x') ∧ e = .part i ⟨j, d, r⟩ ∧
      s' = ⟨s.sets.set j x', s.threads.set i (.run c (done ++ [⟨j, d, r⟩]) (next r))⟩) := by
  simp only [astep] at h
  split at h
  · rename_i c hp
    cases h
    exact .inl ⟨_, hp, rfl, rfl⟩
  · rename_i hp
    cases h
    exact .inr (.inl ⟨_, _, _, hp, rfl, rfl⟩)
  · rename_i hp
    cases h
    exact .inr (.inr (.inl ⟨_, _, _, hp, rfl, rfl⟩))
  · rename_i c done j d next hp
    cases hx : s.sets[j]? with
    | none =>
      rw [part_none hx] at h
      cases h
      exact .inr (.inr (.inl ⟨_, _, _, hp, rfl, rfl⟩))
    | some x =>
      cases hz : C.exec d x with
      | panic =>
        rw [part_some hx hz] at h
        cases h
        exact .inr (.inr (.inl ⟨_, _, _, hp, rfl, rfl⟩))
      | ok z =>
        obtain ⟨r, x'⟩ := z
        rw [part_some hx hz] at h
        cases h
        exact .inr (.inr (.inr ⟨_, _, _, _, _, _, _, _, hp, hx, hz, rfl, rfl⟩))
  · cases h

theorem ARun.length {s₀ s : AState K V C.block.State} {l : List (AEv K V)} (h : ARun hash C s₀ l s) :
    s.sets.length = s₀.sets.length := by
  induction h with
  | nil => rfl
  | snoc hr hs ih =>
    rcases astep_cases hs with ⟨c, -, -, rfl⟩ | ⟨c, done, r, -, -, rfl⟩ | ⟨c, done, p, -, -, rfl⟩ |
      ⟨c, done, j, d, next, x, r, x', -, -, -, -, rfl⟩
    · exact ih
    · exact ih
    · exact ih
    · simpa using ih

theorem ARun.append {s₀ s₁ s : AState K V C.block.State} {l l' : List (AEv K V)}
    (h : ARun hash C s₀ l s₁) (h' : ARun hash C s₁ l' s) : ARun hash C s₀ (l ++ l') s := by
  induction h' with
  | nil => simpa using h
  | snoc hr hs ih => rw [← List.append_assoc]; exact .snoc ih hs

theorem ARun.split {s₀ s : AState K V C.block.State} {l l' : List (AEv K V)}
    (h : ARun hash C s₀ (l ++ l') s) : ∃ s₁, ARun hash C s₀ l s₁ ∧ ARun hash C s₁ l' s := by
  generalize hm : l ++ l' = m at h
  induction h generalizing l' with
  | nil =>
    obtain ⟨rfl, rfl⟩ := List.append_eq_nil_iff.1 hm
    exact ⟨_, .nil, .nil⟩
  | @snoc m s s' i a e hr hs ih =>
    rcases List.eq_nil_or_concat l' with rfl | ⟨l'', e', rfl⟩
    · rw [List.append_nil] at hm
      subst hm
      exact ⟨s', .snoc hr hs, .nil⟩
    · rw [List.concat_eq_append, ← List.append_assoc] at hm
      obtain ⟨h1, h2⟩ := List.append_inj' hm rfl
      cases h2
      obtain ⟨s₁, g1, g2⟩ := ih h1
      rw [List.concat_eq_append]
      exact ⟨s₁, g1, .snoc g2 hs⟩

/-- The last step of a run. -/
theorem ARun.last {s₀ s : AState K V C.block.State} {l : List (AEv K V)} {e : AEv K V}
    (h : ARun hash C s₀ (l ++ [e]) s) : ∃ s₁ i a, ARun hash C s₀ l s₁ ∧ astep hash C s₁ i a = some (s, e) := by
  generalize hm : l ++ [e] = m at h
  cases h with
  | nil => simp at hm
  | snoc hr hs =>
    obtain ⟨h1, h2⟩ := List.append_inj' hm rfl
    cases h2
    subst h1
    exact ⟨_, _, _, hr, hs⟩

/-- Every thread in a call: where the call began and what it did. -/
def Says (hash : K → Nat) (n : Nat) (l : List (AEv K V)) (ps : List (Pc K V)) : Prop :=
  ∀ i c done p, ps[i]? = some (.run c done p) → ∃ a b, l = a ++ .called i c :: b ∧
    (∀ e ∈ b, e.bound ≠ some i) ∧ partsOf i b = done ∧ Follows (prog hash n c) done p

theorem ARun.says {s₀ : List C.block.State} {n : Nat} {s : AState K V C.block.State} {l : List (AEv K V)}
    (h : ARun hash C (.new s₀ n) l s) : Says hash s₀.length l s.threads := by
  induction h with
  | nil =>
    intro i c done p hp
    simp only [AState.new, List.getElem?_replicate] at hp
    split at hp <;> cases hp
  | @snoc l s s' i a e hr hs ih =>
    have hlen := hr.length
    simp only [AState.new] at hlen
    have keep : ∀ (i' : Nat) (e : AEv K V), e.bound ≠ some i' → partsOf i' [e] = [] →
        ∀ c done p, s.threads[i']? = some (.run c done p) → ∃ a b, l ++ [e] = a ++ .called i' c :: b ∧
        (∀ e ∈ b, e.bound ≠ some i') ∧ partsOf i' b = done ∧ Follows (prog hash s₀.length c) done p := by
      intro i' e he hp c done p hpc
      obtain ⟨a, b, h1, h2, h3, h4⟩ := ih i' c done p hpc
      refine ⟨a, b ++ [e], by simp [h1], ?_, by rw [partsOf_append, hp, h3, List.append_nil], h4⟩
      intro e' he'
      rcases List.mem_append.1 he' with h5 | h5
      · exact h2 e' h5
      · rw [List.mem_singleton.1 h5]; exact he
    rcases astep_cases hs with ⟨c, h0, rfl, rfl⟩ | ⟨c, done, r, h0, rfl, rfl⟩ | ⟨c, done, p, h0, rfl, rfl⟩ |
      ⟨c, done, j, d, next, x, r, x', h0, h1, h2, rfl, rfl⟩
    all_goals
      intro i' c' done' p' hp'
      simp only [List.getElem?_set] at hp'
      split at hp'
    · rename_i hi
      subst hi
      split at hp'
      · cases hp'
        exact ⟨l, [], rfl, by simp, rfl, by rw [hlen]; exact follows_nil.2 rfl⟩
      · cases hp'
    · rename_i hi
      exact keep i' _ (by simpa [AEv.bound] using hi) rfl _ _ _ hp'
    · rename_i hi
      subst hi
      split at hp' <;> cases hp'
    · rename_i hi
      exact keep i' _ (by simpa [AEv.bound] using hi) rfl _ _ _ hp'
    · rename_i hi
      subst hi
      split at hp' <;> cases hp'
    · rename_i hi
      exact keep i' _ (by simpa [AEv.bound] using hi) rfl _ _ _ hp'
    · rename_i hi
      subst hi
      split at hp'
      · cases hp'
        obtain ⟨a, b, h3, h4, h5, h6⟩ := ih _ _ _ _ h0
        refine ⟨a, b ++ [.part i ⟨j, d, r⟩], by simp [h3], ?_, ?_, h6.snoc⟩
        · intro e' he'
          rcases List.mem_append.1 he' with h7 | h7
          · exact h4 e' h7
          · rw [List.mem_singleton.1 h7]; simp [AEv.bound]
        · rw [partsOf_append, h5]; simp [partsOf]
      · cases hp'
    · rename_i hi
      exact keep i' _ (by simp [AEv.bound]) (by simp [partsOf, hi]) _ _ _ hp'

/-- A call that returned: where it began, what it did on the sets. -/
theorem ARun.returned {s₀ : List C.block.State} {n : Nat} {s : AState K V C.block.State}
    {l1 l2 : List (AEv K V)} {i : Nat} {c done r}
    (h : ARun hash C (.new s₀ n) (l1 ++ .returned i c done r :: l2) s) :
    ∃ a b, l1 = a ++ .called i c :: b ∧ (∀ e ∈ b, e.bound ≠ some i) ∧ partsOf i b = done ∧
      Follows (prog hash s₀.length c) done (.ret r) := by
  have : l1 ++ .returned i c done r :: l2 = (l1 ++ [.returned i c done r]) ++ l2 := by simp
  rw [this] at h
  obtain ⟨s1, h1, -⟩ := h.split
  obtain ⟨s2, i', a, h2, h3⟩ := h1.last
  rcases astep_cases h3 with ⟨c', -, he, -⟩ | ⟨c', done', r', h0, he, -⟩ | ⟨c', done', p, -, he, -⟩ |
      ⟨c', done', j, d, next, x, r', x', -, -, -, he, -⟩
  · cases he
  · cases he
    exact h2.says i _ _ _ h0
  · cases he
  · cases he

/-- While thread `i` is in a call and no other thread calls a set, the rest of the call gives what it
would have given alone. -/
theorem ARun.track {s₁ s : AState K V C.block.State} {l : List (AEv K V)} (h : ARun hash C s₁ l s)
    {i : Nat} {c : SCall K V} {done : List (Part K V)} {p : Prog K V}
    (hp : s₁.threads[i]? = some (.run c done p)) (hb : ∀ e ∈ l, e.bound ≠ some i)
    (ho : ∀ i' x, .part i' x ∈ l → i' = i) :
    ∃ done' p', s.threads[i]? = some (.run c done' p') ∧ p'.alone C s.sets = p.alone C s₁.sets := by
  induction h with
  | nil => exact ⟨done, p, hp, rfl⟩
  | @snoc l s s' i' a e hr hs ih =>
    obtain ⟨done', p', h1, h2⟩ := ih (fun e he => hb e (by simp [he])) fun i x hx => ho i x (by simp [hx])
    have hbe := hb e (by simp)
    rcases astep_cases hs with ⟨c', h0, rfl, rfl⟩ | ⟨c', done', r', h0, rfl, rfl⟩ | ⟨c', done', p, h0, rfl, rfl⟩ |
      ⟨c', done', j, d, next, x, r', x', h0, h3, h4, rfl, rfl⟩
    · have : i' ≠ i := by simpa [AEv.bound] using hbe
      exact ⟨_, _, by rw [List.getElem?_set_ne this]; exact h1, h2⟩
    · have : i' ≠ i := by simpa [AEv.bound] using hbe
      exact ⟨_, _, by rw [List.getElem?_set_ne this]; exact h1, h2⟩
    · have : i' ≠ i := by simpa [AEv.bound] using hbe
      exact ⟨_, _, by rw [List.getElem?_set_ne this]; exact h1, h2⟩
    · have := ho i' _ (List.mem_append_right _ (List.mem_singleton.2 rfl))
      subst this
      rw [h0] at h1
      cases h1
      refine ⟨_, _, by rw [List.getElem?_set_self (List.getElem?_eq_some_iff.1 h0).1], ?_⟩
      rw [← h2]
      exact (alone_ok h3 h4 rfl).symm

end

end Byoc.Assoc
