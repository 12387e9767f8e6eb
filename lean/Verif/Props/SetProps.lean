import Verif.Props.CacheProps

/-!
# C97: set-associative caches
-/

namespace Byoc.SetProps

open ArrayProps Policy PolicyProps CellProps TierProps Textbook CacheProps

variable {K V T : Type} [LinearOrder K]

/-! ## Specification -/

/-- The requests for keys of the set `i`, of `n` sets. -/
def ofSet (hash : K → Nat) (n i : Nat) (ks : List K) : List K := ks.filter fun k => hash k % n = i

/-- Which requests are found when each set `i` is a textbook cache with the policy `step i`: a request is found
when its key is held by a cache to which only the previous requests for the same set were made. -/
def hitsBySet (hash : K → Nat) (n : Nat) (step : Nat → List K → K → List K) : List K → List K → List Bool
  | _, [] => []
  | past, k :: ks =>
    decide (k ∈ held (step (hash k % n)) (ofSet hash n (hash k % n) past)) ::
      hitsBySet hash n step (past ++ [k]) ks

omit [LinearOrder K] in
theorem held_snoc {step : List K → K → List K} (ks : List K) (k : K) :
    held step (ks ++ [k]) = step (held step ks) k := by
  simp [held]

omit [LinearOrder K] in
theorem ofSet_snoc (hash : K → Nat) (n i : Nat) (ks : List K) (k : K) :
    ofSet hash n i (ks ++ [k]) = if hash k % n = i then ofSet hash n i ks ++ [k] else ofSet hash n i ks := by
  simp only [ofSet, List.filter_append]
  split <;> simp [*]

/-! ## Associative, one request -/

section
variable {C : Block K V}

omit [LinearOrder K] in
theorem pushLoop_ok : ∀ (cs : List C.State) (gs : List (List (K × V))), cs.length = gs.length →
    (∀ (j : Nat) c g, cs[j]? = some c → gs[j]? = some g → ∃ out c', C.push c g = .ok (out, c')) →
    ∃ (outs : List (K × V)) (cs' : List C.State), Associative.pushLoop C cs gs = .ok (outs, cs') ∧ cs'.length = cs.length ∧
      ∀ (j : Nat) c' g, cs'[j]? = some c' → gs[j]? = some g → ∃ c out, cs[j]? = some c ∧ C.push c g = .ok (out, c')
  | [], [], _, _ => ⟨[], [], rfl, rfl, by simp⟩
  | [], _ :: _, h, _ => by simp at h
  | _ :: _, [], h, _ => by simp at h
  | c :: cs, g :: gs, h, hp => by
    obtain ⟨o, c', e⟩ := hp 0 c g rfl rfl
    obtain ⟨outs, cs', e1, e2, e3⟩ := pushLoop_ok cs gs (by simpa using h)
      (fun j c g h1 h2 => hp (j + 1) c g (by simpa using h1) (by simpa using h2))
    refine ⟨o ++ outs, c' :: cs', by simp [Associative.pushLoop, e, e1], by simp [e2], ?_⟩
    intro j d g' h1 h2
    cases j with
    | zero =>
      simp only [List.getElem?_cons_zero, Option.some.injEq] at h1 h2
      subst h1 h2
      exact ⟨c, o, rfl, e⟩
    | succ j =>
      simp only [List.getElem?_cons_succ] at h1 h2 ⊢
      exact e3 j d g' h1 h2

omit [LinearOrder K] in
/-- `push` of one element: its set gets it, the others get an empty batch. -/
theorem push_one {hash : K → Nat} {sets : List C.State} {k : K} {v : V} (hn : sets ≠ [])
    (hp : ∀ (j : Nat) c, sets[j]? = some c → ∃ out c', C.push c (if j = hash k % sets.length then [(k, v)] else []) = .ok (out, c')) :
    ∃ (outs : List (K × V)) (sets' : List C.State), (associative hash C).push sets [(k, v)] = .ok (outs, sets') ∧ sets'.length = sets.length ∧
      ∀ (j : Nat) c', sets'[j]? = some c' → ∃ c out, sets[j]? = some c ∧
        C.push c (if j = hash k % sets.length then [(k, v)] else []) = .ok (out, c') := by
  have hlen : 0 < sets.length := List.length_pos_of_ne_nil hn
  set g := (List.replicate sets.length ([] : List (K × V))).modify (hash k % sets.length) (· ++ [(k, v)]) with hg
  have hgl : g.length = sets.length := by simp [hg]
  have hgj : ∀ j, j < sets.length → g[j]? = some (if j = hash k % sets.length then [(k, v)] else []) := by
    intro j hj
    rw [hg, List.getElem?_modify, List.getElem?_replicate, if_pos hj]
    by_cases h : hash k % sets.length = j
    · simp [h]
    · simp [h, Ne.symm h]
  have hd : Associative.distribute hash Prod.fst sets.length [(k, v)] (List.replicate sets.length []) = .ok g := by
    simp [Associative.distribute, Associative.set, hlen.ne', hg]
  obtain ⟨outs, sets', e1, e2, e3⟩ := pushLoop_ok sets g hgl.symm (by
    intro j c g' h1 h2
    have hj := (List.getElem?_eq_some_iff.1 h1).1
    rw [hgj j hj] at h2
    cases h2
    exact hp j c h1)
  refine ⟨outs, sets', ?_, e2, ?_⟩
  · show Associative.push hash C sets [(k, v)] = _
    simp only [Associative.push, hd, e1, Res.ok_bind]
    rfl
  · intro j c' h1
    have hj := (List.getElem?_eq_some_iff.1 h1).1
    exact e3 j c' _ h1 (hgj j (e2 ▸ hj))

omit [LinearOrder K] in
theorem access_one {hash : K → Nat} {op : C.State → K → (V → V) → Res (Option V × C.State)}
    {sets : List C.State} {k : K} {f : V → V} {c c' : C.State} {o : Option V}
    (hc : sets[hash k % sets.length]? = some c) (ho : op c k f = .ok (o, c')) :
    associativeAccess hash op sets k f = .ok (o, sets.set (hash k % sets.length) c') := by
  have hn : sets.length ≠ 0 := by
    intro h
    rw [List.eq_nil_of_length_eq_zero h] at hc
    simp at hc
  simp [associativeAccess, Associative.set, hn, hc, Res.unwrap, ho]

end

/-! ## Decorated sets sharing one clock: `Decorator<Associative<C>>` -/

section
variable [LinearOrder T] {D : Decoration V} [LE D.Item] {A : Access D} {stamp : D.Item → T}
  {clock : Nat → T} {read : D.Factory → Nat} {touch : Bool}

omit [LinearOrder T] in
theorem holds_later {t : Stack K D.Item} {fetch : K → V} {c : Nat} {s : t.block.State} {fac fac' : D.Factory}
    {l : List K} (h : Holds stamp clock read t fetch c (s, fac) l) (hf : read fac ≤ read fac') :
    Holds stamp clock read t fetch c (s, fac') l := by
  obtain ⟨hh, i1, i2, i3⟩ := h
  exact ⟨hh, i1, i2.later hf, i3⟩

omit [LinearOrder T] in
theorem holds_new {t : Stack K D.Item} (fetch : K → V) {s : t.block.State} (fac : D.Factory)
    (hi : t.Init s) (hroom : t.FrontRoom s) {c : Nat} (hc : t.block.capacity s = c) :
    Holds stamp clock read t fetch c (s, fac) [] := by
  subst hc
  exact holds_init fetch fac hi hroom

/-- An empty batch changes nothing. -/
theorem holds_push_nil {t : Stack K D.Item} (ht : t.Tiered) (hD : Stamps D stamp clock read)
    (hA : Accesses D A stamp clock read touch) (hle : ∀ a b : D.Item, a ≤ b ↔ stamp b ≤ stamp a)
    (hm : StrictMono clock) {fetch : K → V} {c : Nat} {s : t.block.State} {fac : D.Factory} {l : List K}
    (hs : Holds stamp clock read t fetch c (s, fac) l) :
    ∃ out s', t.block.push s [] = .ok (out, s') ∧ Holds stamp clock read t fetch c (s', fac) l := by
  obtain ⟨h, i1, i2, i3, i4, i5, i6, i7⟩ := hs
  simp only at i1 i2 i3 i6 i7
  obtain ⟨w1, w2, w3, w4, -⟩ := Stack.Tiered.shape t ht
  have hL := t.lawful True w1 w2
  have hn : ((t.elems s).map Prod.fst).Nodup := (keys_of_perm i7).nodup_iff.2 i4.1
  obtain ⟨out, s', q1, q2, q3, q4⟩ := hL.push s [] i1 trivial
  have hcount := (t.slots True w1 w3).pushExact _ _ _ _ i1 q1
  have hb := hL.bounded s i1
  have hnil : out = [] := List.eq_nil_of_length_eq_zero (by simp at hcount; omega)
  subst hnil
  simp only [List.append_nil] at q4
  refine ⟨[], s', q1, h, q2, i2.sub fun e he => q4.mem_iff.1 he, ?_, i4, i5, q3.trans i6, (q4.map _).trans i7⟩
  refine ordered_session (A := A) (s := (s, fac)) (x := .op (.push [])) (out := []) (s' := (s', fac)) ht hD hA hle
    hm.monotone i1 hn i2 i3 trivial ?_
  show (decorator D t.block).push (s, fac) [] = _
  simp [decorator, wrapAll, q1]

omit [LinearOrder T] [LE D.Item] in
/-- What a cached lookup does, call by call. -/
theorem cached_inv {t : Stack K D.Item} {fetch : K → V} {s : t.block.State} {fac : D.Factory} {k : K}
    {a : Bool × V} {s' : t.block.State × D.Factory}
    (h : cached (B := (Stack.decorator D A t).block) (decoratorCells A (cellsOf t.gets)) fetch (s, fac) k =
      .ok (a, s')) :
    (∃ i s1, t.gets.get s k (A.access fac id) = .ok (some i, s1) ∧ s' = (s1, A.tick fac) ∧
      a = (true, D.unwrap i)) ∨
    ∃ s1 out s2, t.gets.get s k (A.access fac id) = .ok (none, s1) ∧
      t.block.push s1 [(k, (D.wrap fac (fetch k)).1)] = .ok (out, s2) ∧ s' = (s2, (D.wrap fac (fetch k)).2) ∧
      a = (false, fetch k) := by
  obtain ⟨⟨o, s1⟩, h1, h⟩ := bind_eq_ok h
  obtain ⟨⟨o', c⟩, h2, h1⟩ := bind_eq_ok (show ((cellsOf t.gets).get s k (A.touches fac [Use.read.touch]) >>= _) = _ from h1)
  replace h2 : t.gets.get s k (A.access fac id) = .ok (o', c) := h2
  replace h1 : Res.ok (o'.map D.unwrap, (c, if o'.isSome then A.tick fac else fac)) = .ok (o, s1) := h1
  cases o' with
  | some i =>
    cases h1
    cases h
    exact .inl ⟨i, c, h2, rfl, rfl⟩
  | none =>
    cases h1
    obtain ⟨⟨out, s2⟩, h3, h⟩ := bind_eq_ok h
    cases h
    obtain ⟨⟨o3, c3⟩, h4, h3⟩ := bind_eq_ok (show (t.block.push c [(k, (D.wrap fac (fetch k)).1)] >>= _) = _ from h3)
    cases h3
    exact .inr ⟨c, o3, c3, h2, h4, rfl, rfl⟩

/-- Each set holds its keys. -/
def SetsHold (stamp : D.Item → T) (clock : Nat → T) (read : D.Factory → Nat) (t : Stack K D.Item)
    (fetch : K → V) (ways : Nat → Nat) (n : Nat) (s : List t.block.State × D.Factory) (ls : Nat → List K) : Prop :=
  s.1.length = n ∧ ∀ i c, s.1[i]? = some c → Holds stamp clock read t fetch (ways i) (c, s.2) (ls i)

theorem cached_set {t : Stack K D.Item} (ht : t.Tiered) (hD : Stamps D stamp clock read)
    (hA : Accesses D A stamp clock read touch) (hle : ∀ a b : D.Item, a ≤ b ↔ stamp b ≤ stamp a)
    (hm : StrictMono clock) (htouch : touch = true ∨ ∀ s, t.Ordered s) (hash : K → Nat) (fetch : K → V)
    (ways : Nat → Nat) {n : Nat} (hn : n ≠ 0) {s : List t.block.State × D.Factory} {ls : Nat → List K}
    (hs : SetsHold stamp clock read t fetch ways n s ls) (k : K) :
    ∃ s', cached (B := (Stack.decorator D A (Stack.associative hash t)).block)
        (decoratorCells A (cellsOf (Stack.associative hash t).gets)) fetch s k =
        .ok ((decide (k ∈ ls (hash k % n)), fetch k), s') ∧
      SetsHold stamp clock read t fetch ways n s'
        (Function.update ls (hash k % n) (stepOf touch (ways (hash k % n)) (ls (hash k % n)) k)) := by
  obtain ⟨sets, fac⟩ := s
  obtain ⟨hl, hh⟩ := hs
  simp only at hl hh
  subst hl
  set i := hash k % sets.length with hi
  have hin : i < sets.length := Nat.mod_lt _ (by omega)
  obtain ⟨c, hc⟩ : ∃ c, sets[i]? = some c := ⟨_, List.getElem?_eq_getElem hin⟩
  obtain ⟨c', h1, h2⟩ := cached_step ht hD hA hle hm htouch fetch (ways i) (hh i c hc) k
  rcases cached_inv h1 with ⟨x, c1, g1, rfl, g3⟩ | ⟨c1, out, c2, g1, g2, rfl, g3⟩
  · -- found
    have hget : (decoratorCells A (cellsOf (Stack.associative hash t).gets)).get (sets, fac) k [Use.read.touch] =
        .ok (some (D.unwrap x), (sets.set i c1, A.tick fac)) := by
      have : (Stack.associative hash t).gets.get sets k (A.access fac id) = .ok (some x, sets.set i c1) :=
        access_one hc g1
      show (do let (o, c) ← (Stack.associative hash t).gets.get sets k (A.access fac id); _ : Res _) = _
      rw [this]
      rfl
    refine ⟨(sets.set i c1, A.tick fac), ?_, by simp, ?_⟩
    · rw [g3]
      exact cached_hit (B := (Stack.decorator D A (Stack.associative hash t)).block) hget
    · have hlater : read fac ≤ read (A.tick fac) := by
        have := hA.2 fac id x
        split at this <;> omega
      intro j d hd
      simp only [List.getElem?_set] at hd
      by_cases hj : i = j
      · subst hj
        simp only [if_true, hin] at hd
        cases hd
        rw [Function.update_self]
        exact h2
      · rw [if_neg hj] at hd
        rw [Function.update_of_ne (Ne.symm hj)]
        exact holds_later (hh j d hd) hlater
  · -- fetched
    have hget : (decoratorCells A (cellsOf (Stack.associative hash t).gets)).get (sets, fac) k [Use.read.touch] =
        .ok (none, (sets.set i c1, fac)) := by
      have : (Stack.associative hash t).gets.get sets k (A.access fac id) = .ok (none, sets.set i c1) :=
        access_one hc g1
      show (do let (o, c) ← (Stack.associative hash t).gets.get sets k (A.access fac id); _ : Res _) = _
      rw [this]
      rfl
    have hlen : (sets.set i c1).length = sets.length := by simp
    obtain ⟨outs, sets', e1, e2, e3⟩ := push_one (C := t.block) (hash := hash) (sets := sets.set i c1) (k := k)
      (v := (D.wrap fac (fetch k)).1) (by intro h; rw [h] at hlen; simp at hlen; omega) (by
        intro j d hd
        rw [hlen, ← hi]
        simp only [List.getElem?_set] at hd
        by_cases hj : i = j
        · subst hj
          simp only [if_true, hin] at hd
          cases hd
          rw [if_pos rfl]
          exact ⟨out, c2, g2⟩
        · rw [if_neg hj] at hd
          rw [if_neg (Ne.symm hj)]
          obtain ⟨o, d', h, -⟩ := holds_push_nil (A := A) ht hD hA hle hm (hh j d hd)
          exact ⟨o, d', h⟩)
    rw [hlen, ← hi] at e3
    have hpush : (Stack.decorator D A (Stack.associative hash t)).block.push (sets.set i c1, fac) [(k, fetch k)] =
        .ok (outs.map (strip D), (sets', (D.wrap fac (fetch k)).2)) := by
      show (do let (out, c) ← (associative hash t.block).push (sets.set i c1) [(k, (D.wrap fac (fetch k)).1)]
               return (out.map (strip D), (c, (D.wrap fac (fetch k)).2)) : Res _) = _
      rw [e1]
      rfl
    refine ⟨(sets', (D.wrap fac (fetch k)).2), ?_, e2.trans hlen, ?_⟩
    · rw [g3]
      exact cached_miss (B := (Stack.decorator D A (Stack.associative hash t)).block) hget hpush
    · have hlater : read fac ≤ read (D.wrap fac (fetch k)).2 := by rw [(hD.wrap fac (fetch k)).2]; omega
      intro j d hd
      obtain ⟨d0, o, p1, p2⟩ := e3 j d hd
      simp only [List.getElem?_set] at p1
      by_cases hj : i = j
      · subst hj
        simp only [if_true, hin] at p1
        cases p1
        rw [if_pos rfl, g2] at p2
        cases p2
        rw [Function.update_self]
        exact h2
      · rw [if_neg hj] at p1
        rw [if_neg (Ne.symm hj)] at p2
        rw [Function.update_of_ne (Ne.symm hj)]
        obtain ⟨o', d', q1, q2⟩ := holds_push_nil (A := A) ht hD hA hle hm (hh j d0 p1)
        rw [p2] at q1
        cases q1
        exact holds_later q2 hlater

/-- The keys each set holds after requests. -/
def heldBySet (hash : K → Nat) (n : Nat) (step : Nat → List K → K → List K) (past : List K) (i : Nat) : List K :=
  held (step i) (ofSet hash n i past)

omit [LinearOrder K] in
theorem heldBySet_snoc (hash : K → Nat) (n : Nat) (step : Nat → List K → K → List K) (past : List K) (k : K) :
    heldBySet hash n step (past ++ [k]) = Function.update (heldBySet hash n step past) (hash k % n)
      (step (hash k % n) (heldBySet hash n step past (hash k % n)) k) := by
  funext i
  by_cases h : hash k % n = i
  · subst h
    rw [Function.update_self, heldBySet, ofSet_snoc, if_pos rfl, held_snoc]
    rfl
  · rw [Function.update_of_ne (Ne.symm h), heldBySet, ofSet_snoc, if_neg h]
    rfl

theorem cached_sets {t : Stack K D.Item} (ht : t.Tiered) (hD : Stamps D stamp clock read)
    (hA : Accesses D A stamp clock read touch) (hle : ∀ a b : D.Item, a ≤ b ↔ stamp b ≤ stamp a)
    (hm : StrictMono clock) (htouch : touch = true ∨ ∀ s, t.Ordered s) (hash : K → Nat) (fetch : K → V)
    (ways : Nat → Nat) {n : Nat} (hn : n ≠ 0) (ks : List K) :
    ∀ (s : List t.block.State × D.Factory) (past : List K),
    SetsHold stamp clock read t fetch ways n s (heldBySet hash n (fun i => stepOf touch (ways i)) past) →
    ∃ s', cachedAll (B := (Stack.decorator D A (Stack.associative hash t)).block)
        (decoratorCells A (cellsOf (Stack.associative hash t).gets)) fetch s ks =
        .ok ((hitsBySet hash n (fun i => stepOf touch (ways i)) past ks).zip (ks.map fetch), s') ∧
      SetsHold stamp clock read t fetch ways n s' (heldBySet hash n (fun i => stepOf touch (ways i)) (past ++ ks)) := by
  induction ks with
  | nil => intro s past hs; exact ⟨s, rfl, by simpa using hs⟩
  | cons k ks ih =>
    intro s past hs
    obtain ⟨s1, h1, h2⟩ := cached_set ht hD hA hle hm htouch hash fetch ways hn hs k
    rw [← heldBySet_snoc hash n (fun i => stepOf touch (ways i))] at h2
    obtain ⟨s2, h3, h4⟩ := ih s1 _ h2
    refine ⟨s2, ?_, by simpa using h4⟩
    exact cachedAll_cons (B := (Stack.decorator D A (Stack.associative hash t)).block) h1 h3

omit [LinearOrder T] in
theorem setsHold_init {t : Stack K D.Item} (fetch : K → V) {sets : List t.block.State} (fac : D.Factory)
    (hi : ∀ c ∈ sets, t.Init c) (hroom : ∀ c ∈ sets, t.FrontRoom c) (ways : Nat → Nat)
    (hw : ∀ i c, sets[i]? = some c → t.block.capacity c = ways i) :
    SetsHold stamp clock read t fetch ways sets.length (sets, fac) (fun _ => []) := by
  refine ⟨rfl, fun i c hc => ?_⟩
  have hmem := List.mem_of_getElem? hc
  rw [← hw i c hc]
  exact holds_init fetch fac (hi c hmem) (hroom c hmem)

end

/-! ## Sets decorated one by one: `Associative<Decorator<C>>`, and any other policy -/

section
variable {C : Block K V} {G : GetOps C} {R : Nat → C.State → List K → Prop} {step : Nat → List K → K → List K}
  {fetch : K → V}

omit [LinearOrder K] in
theorem cachedGet_inv {s : C.State} {k : K} {a : Bool × V} {s' : C.State}
    (h : cached (cellsOf G) fetch s k = .ok (a, s')) :
    (∃ v, G.get s k id = .ok (some v, s') ∧ a = (true, v)) ∨
    ∃ s1 out, G.get s k id = .ok (none, s1) ∧ C.push s1 [(k, fetch k)] = .ok (out, s') ∧ a = (false, fetch k) := by
  obtain ⟨⟨o, s1⟩, h1, h⟩ := bind_eq_ok h
  replace h1 : G.get s k id = .ok (o, s1) := h1
  cases o with
  | some v => cases h; exact .inl ⟨v, h1, rfl⟩
  | none =>
    obtain ⟨⟨out, s2⟩, h3, h⟩ := bind_eq_ok h
    cases h
    exact .inr ⟨s1, out, h1, h3, rfl⟩

omit [LinearOrder K] in
theorem decoratorGet_ok {D : Decoration V} {A : Access D} {C : Block K D.Item} {G : GetOps C} {s c : C.State}
    {fac : D.Factory} {k : K} {f : V → V} {o : Option D.Item} (h : G.get s k (A.access fac f) = .ok (o, c)) :
    (decoratorGet A G).get (s, fac) k f = .ok (o.map D.unwrap, (c, if o.isSome then A.tick fac else fac)) := by
  simp [decoratorGet, h]

omit [LinearOrder K] in
theorem decoratorPush_ok {D : Decoration V} {C : Block K D.Item} {s c : C.State}
    {fac : D.Factory} {l : List (K × V)} {out} (h : C.push s (wrapAll D fac l).1 = .ok (out, c)) :
    (decorator D C).push (s, fac) l = .ok (out.map (strip D), (c, (wrapAll D fac l).2)) := by
  simp [decorator, h]

omit [LinearOrder K] in
theorem anyOfGet_ok {ι : Type} {B : ι → Block K V} {G : ∀ i, GetOps (B i)} {i : ι} {s c : (B i).State} {k : K}
    {f : V → V} {o : Option V} (h : (G i).get s k f = .ok (o, c)) :
    (anyOfGet G).get ⟨i, s⟩ k f = .ok (o, ⟨i, c⟩) := by
  simp [anyOfGet, h]

omit [LinearOrder K] in
theorem anyOfPush_ok {ι : Type} {B : ι → Block K V} {i : ι} {s c : (B i).State} {l out : List (K × V)}
    (h : (B i).push s l = .ok (out, c)) : (anyOf B).push ⟨i, s⟩ l = .ok (out, ⟨i, c⟩) := by
  simp [anyOf, h]

/-- If each set refines its textbook cache, so does the `Associative`, request by request. -/
theorem cached_assoc (hash : K → Nat)
    (hstep : ∀ i s l k, R i s l → ∃ s', cached (cellsOf G) fetch s k = .ok ((decide (k ∈ l), fetch k), s') ∧
      R i s' (step i l k))
    (hnil : ∀ i s l, R i s l → ∃ out s', C.push s [] = .ok (out, s') ∧ R i s' l)
    {n : Nat} (hn : n ≠ 0) {s : List C.State} {ls : Nat → List K} (hl : s.length = n)
    (hs : ∀ (i : Nat) c, s[i]? = some c → R i c (ls i)) (k : K) :
    ∃ s' : List C.State, cached (B := associative hash C) (cellsOf (associativeGet hash G)) fetch s k =
        .ok ((decide (k ∈ ls (hash k % n)), fetch k), s') ∧ s'.length = n ∧
      ∀ (i : Nat) c, s'[i]? = some c →
        R i c (Function.update ls (hash k % n) (step (hash k % n) (ls (hash k % n)) k) i) := by
  subst hl
  set i := hash k % s.length with hi
  have hin : i < s.length := Nat.mod_lt _ (by omega)
  obtain ⟨c, hc⟩ : ∃ c, s[i]? = some c := ⟨_, List.getElem?_eq_getElem hin⟩
  obtain ⟨c', h1, h2⟩ := hstep i c (ls i) k (hs i c hc)
  rcases cachedGet_inv h1 with ⟨v, g1, g3⟩ | ⟨c1, out, g1, g2, g3⟩
  · have hget : (cellsOf (associativeGet hash G)).get s k [Use.read.touch] = .ok (some v, s.set i c') :=
      access_one hc g1
    refine ⟨s.set i c', ?_, by simp, ?_⟩
    · rw [g3]
      exact cached_hit hget
    · intro j d hd
      simp only [List.getElem?_set] at hd
      by_cases hj : i = j
      · subst hj
        simp only [if_true, hin] at hd
        cases hd
        rw [Function.update_self]
        exact h2
      · rw [if_neg hj] at hd
        rw [Function.update_of_ne (Ne.symm hj)]
        exact hs j d hd
  · have hget : (cellsOf (associativeGet hash G)).get s k [Use.read.touch] = .ok (none, s.set i c1) :=
      access_one hc g1
    have hlen : (s.set i c1).length = s.length := by simp
    obtain ⟨outs, sets', e1, e2, e3⟩ := push_one (C := C) (hash := hash) (sets := s.set i c1) (k := k)
      (v := fetch k) (by intro h; rw [h] at hlen; simp at hlen; omega) (by
        intro j d hd
        rw [hlen, ← hi]
        simp only [List.getElem?_set] at hd
        by_cases hj : i = j
        · subst hj
          simp only [if_true, hin] at hd
          cases hd
          rw [if_pos rfl]
          exact ⟨out, c', g2⟩
        · rw [if_neg hj] at hd
          rw [if_neg (Ne.symm hj)]
          obtain ⟨o, d', h, -⟩ := hnil j d _ (hs j d hd)
          exact ⟨o, d', h⟩)
    rw [hlen, ← hi] at e3
    refine ⟨sets', ?_, e2.trans hlen, ?_⟩
    · rw [g3]
      exact cached_miss hget e1
    · intro j d hd
      obtain ⟨d0, o, p1, p2⟩ := e3 j d hd
      simp only [List.getElem?_set] at p1
      by_cases hj : i = j
      · subst hj
        simp only [if_true, hin] at p1
        cases p1
        rw [if_pos rfl, g2] at p2
        cases p2
        rw [Function.update_self]
        exact h2
      · rw [if_neg hj] at p1
        rw [if_neg (Ne.symm hj)] at p2
        rw [Function.update_of_ne (Ne.symm hj)]
        obtain ⟨o', d', q1, q2⟩ := hnil j d0 _ (hs j d0 p1)
        rw [p2] at q1
        cases q1
        exact q2

theorem cached_assocAll (hash : K → Nat)
    (hstep : ∀ i s l k, R i s l → ∃ s', cached (cellsOf G) fetch s k = .ok ((decide (k ∈ l), fetch k), s') ∧
      R i s' (step i l k))
    (hnil : ∀ i s l, R i s l → ∃ out s', C.push s [] = .ok (out, s') ∧ R i s' l)
    {n : Nat} (hn : n ≠ 0) (ks : List K) : ∀ (s : List C.State) (past : List K), s.length = n →
    (∀ (i : Nat) c, s[i]? = some c → R i c (heldBySet hash n step past i)) →
    ∃ s' : List C.State, cachedAll (B := associative hash C) (cellsOf (associativeGet hash G)) fetch s ks =
        .ok ((hitsBySet hash n step past ks).zip (ks.map fetch), s') ∧ s'.length = n ∧
      ∀ (i : Nat) c, s'[i]? = some c → R i c (heldBySet hash n step (past ++ ks) i) := by
  induction ks with
  | nil => intro s past hl hs; exact ⟨s, rfl, hl, by simpa using hs⟩
  | cons k ks ih =>
    intro s past hl hs
    obtain ⟨s1, h1, h2, h3⟩ := cached_assoc hash hstep hnil hn hl hs k
    rw [← heldBySet_snoc hash n step] at h3
    obtain ⟨s2, h4, h5, h6⟩ := ih s1 _ h2 h3
    refine ⟨s2, ?_, h5, by simpa using h6⟩
    exact cachedAll_cons (B := associative hash C) h1 h4

end

/-! ## C97 -/

/-- The requests answered when each set `i` keeps the `ways i` keys of its own requested last. -/
def amongOfSet (hash : K → Nat) (n : Nat) (ways : Nat → Nat) : List K → List K → List Bool
  | _, [] => []
  | past, k :: ks =>
    decide (k ∈ (recent (ofSet hash n (hash k % n) past)).take (ways (hash k % n))) ::
      amongOfSet hash n ways (past ++ [k]) ks

theorem hitsBySet_lru (hash : K → Nat) (n : Nat) (ways : Nat → Nat) (ks : List K) : ∀ past,
    hitsBySet hash n (fun i => lruStep (ways i)) past ks = amongOfSet hash n ways past ks := by
  induction ks with
  | nil => intro past; rfl
  | cons k ks ih => intro past; simp only [hitsBySet, amongOfSet, ih, held_lru]

/-- **C97, `Decorator<Associative<C>, Lru>`.** A set-associative cache, each set of any number of tiers,
decorated with `Lru`: no call panics, every answer is the value fetched, and a request is answered from the cache
exactly when its key is among the keys of the same set requested last, as many as the capacity of the set; these
are the keys stored in the set. -/
theorem C97_lru [LinearOrder T] (clock : Nat → T) (hm : StrictMono clock)
    (t : Stack K (LruCell V T)) (ht : t.Tiered) (hash : K → Nat) (sets : List t.block.State) (hne : sets ≠ [])
    (hi : ∀ c ∈ sets, t.Init c) (hroom : ∀ c ∈ sets, t.FrontRoom c) (ways : Nat → Nat)
    (hw : ∀ (i : Nat) c, sets[i]? = some c → t.block.capacity c = ways i) (fetch : K → V) (ks : List K) :
    ∃ (sets' : List t.block.State) (now : Nat),
      cachedAll (lruCells clock (Stack.associative hash t)) fetch (sets, (0 : Nat)) ks =
        .ok ((amongOfSet hash sets.length ways [] ks).zip (ks.map fetch), (sets', now)) ∧
      sets'.length = sets.length ∧ ∀ (i : Nat) c, sets'[i]? = some c →
        ((t.elems c).map fun e => (e.1, e.2.value)).Perm
          (((recent (ofSet hash sets.length i ks)).take (ways i)).map fun k => (k, fetch k)) := by
  have hn : sets.length ≠ 0 := fun h => hne (List.eq_nil_of_length_eq_zero h)
  obtain ⟨⟨sets', now⟩, h1, h2, h3⟩ := cached_sets (D := lru V clock) (t := t) ht (lru_stamps clock)
    (lru_accesses clock) (fun a b => lru_le a b) hm (.inl rfl) hash fetch ways hn ks (sets, (0 : Nat)) []
    (setsHold_init (D := lru V clock) fetch (0 : Nat) hi hroom ways hw)
  refine ⟨sets', now, ?_, h2, ?_⟩
  · rw [← hitsBySet_lru]; exact h1
  · intro i c hc
    obtain ⟨_, -, -, -, -, -, -, h⟩ := h3 i c hc
    rw [← held_lru]
    exact h

/-- **C97, `Decorator<Associative<Array>, Fifo>`.** The same with `Fifo`: each set is a queue of its own keys. -/
theorem C97_fifo (srt srtS : Sorter (K × FifoCell V)) (h1 : ByValue srt) (h2 : ByValue srtS) (hash : K → Nat)
    (ways : List Nat) (hne : ways ≠ []) (fetch : K → V) (ks : List K) :
    ∃ (sets : List (Array K (FifoCell V))) (now : Nat),
      cachedAll (fifoCells (Stack.associative hash (Stack.array (fun _ => 1) srt srtS))) fetch
          (ways.map Array.new, (0 : Nat)) ks =
        .ok ((hitsBySet hash ways.length (fun i => fifoStep (ways.getD i 0)) [] ks).zip (ks.map fetch),
          (sets, now)) ∧
      sets.length = ways.length ∧ ∀ (i : Nat) c, sets[i]? = some c →
        (c.values.map fun e => (e.1, e.2.value)).Perm
          ((held (fifoStep (ways.getD i 0)) (ofSet hash ways.length i ks)).map fun k => (k, fetch k)) := by
  have hn : ways.length ≠ 0 := fun h => hne (List.eq_nil_of_length_eq_zero h)
  have hlen : (ways.map (Array.new (K := K) (V := FifoCell V))).length = ways.length := by simp
  have hinit := setsHold_init (D := fifo V) (stamp := fun i : FifoCell V => i.counter) (clock := id) (read := id)
    (t := Stack.array (fun _ => 1) srt srtS) fetch (sets := ways.map Array.new) (0 : Nat)
    (by
      intro c hc
      obtain ⟨n, -, rfl⟩ := List.mem_map.1 hc
      exact ⟨n, rfl⟩)
    (fun _ _ => trivial) (fun i => ways.getD i 0) (by
      intro i c hc
      replace hc : (ways.map (Array.new (K := K) (V := FifoCell V)))[i]? = some c := hc
      rw [List.getElem?_map] at hc
      show Array.capacity c = _
      cases hx : ways[i]? with
      | none => rw [hx] at hc; cases hc
      | some n => rw [hx] at hc; cases hc; simp [hx, Array.new])
  obtain ⟨⟨sets, now⟩, g1, g2, g3⟩ := cached_sets (D := fifo V) (t := Stack.array (fun _ => 1) srt srtS)
    ⟨fun _ => rfl, h1, h2⟩ fifo_stamps fifo_accesses (fun a b => fifo_le a b) strictMono_id
    (.inr fun _ => trivial) hash fetch (fun i => ways.getD i 0) hn ks (ways.map Array.new, (0 : Nat)) []
    (hlen ▸ hinit)
  refine ⟨sets, now, g1, g2, ?_⟩
  intro i c hc
  obtain ⟨_, -, -, -, -, -, -, h⟩ := g3 i c hc
  exact h

/-- A set decorated with `Lru` on its own, which reads a clock of its own: the times at which the code reads the
clock for this set. -/
def lruSet (T : Type) [LinearOrder T] (t : Stack K (LruCell V T)) : Block K V :=
  anyOf fun clock : {clock : Nat → T // StrictMono clock} => (lruOf clock.1 t).block

def lruSetGet (T : Type) [LinearOrder T] (t : Stack K (LruCell V T)) : GetOps (lruSet T t) :=
  anyOfGet fun clock : {clock : Nat → T // StrictMono clock} => (lruOf clock.1 t).gets

/-- A new set. -/
def lruSetNew [LinearOrder T] (t : Stack K (LruCell V T))
    (c : t.block.State × {clock : Nat → T // StrictMono clock}) : (lruSet T t).State :=
  Sigma.mk (β := fun clock : {clock : Nat → T // StrictMono clock} => (lruOf clock.1 t).block.State) c.2
    (show t.block.State × Nat from (c.1, 0))

/-- **C97, `Associative<Decorator<C, Lru>>`.** The same when the sets are decorated one by one. -/
theorem C97_lru_sets [LinearOrder T] (t : Stack K (LruCell V T)) (ht : t.Tiered) (hash : K → Nat)
    (sets : List (t.block.State × {clock : Nat → T // StrictMono clock})) (hne : sets ≠ [])
    (hi : ∀ c ∈ sets, t.Init c.1) (hroom : ∀ c ∈ sets, t.FrontRoom c.1) (ways : Nat → Nat)
    (hw : ∀ (i : Nat) c, sets[i]? = some c → t.block.capacity c.1 = ways i) (fetch : K → V) (ks : List K) :
    ∃ sets' : List (lruSet T t).State,
      cachedAll (B := associative hash (lruSet T t)) (cellsOf (associativeGet hash (lruSetGet T t))) fetch
          (sets.map (lruSetNew t)) ks =
        .ok ((amongOfSet hash sets.length ways [] ks).zip (ks.map fetch), sets') ∧
      sets'.length = sets.length ∧ ∀ (i : Nat) (c : (lruSet T t).State), sets'[i]? = some c →
        ((t.elems c.2.1).map fun e => (e.1, e.2.value)).Perm
          (((recent (ofSet hash sets.length i ks)).take (ways i)).map fun k => (k, fetch k)) := by
  have hn : sets.length ≠ 0 := fun h => hne (List.eq_nil_of_length_eq_zero h)
  let R : Nat → (lruSet T t).State → List K → Prop := fun i c l =>
    Holds (D := lru V c.1.1) (fun i : LruCell V T => i.timestamp) c.1.1 id t fetch (ways i) c.2 l
  have hstep : ∀ i (s : (lruSet T t).State) l k, R i s l → ∃ s', cached (cellsOf (lruSetGet T t)) fetch s k =
      .ok ((decide (k ∈ l), fetch k), s') ∧ R i s' (lruStep (ways i) l k) := by
    rintro i ⟨clock, s, fac⟩ l k hR
    obtain ⟨s', h1, h2⟩ := cached_step (D := lru V clock.1) ht (lru_stamps clock.1)
      (lru_accesses clock.1) (fun a b => lru_le a b) clock.2 (.inl rfl) fetch (ways i) hR k
    refine ⟨⟨clock, s'⟩, ?_, h2⟩
    rcases cached_inv h1 with ⟨x, c1, g1, rfl, g3⟩ | ⟨c1, out, c2, g1, g2, rfl, g3⟩
    · rw [g3]
      exact cached_hit (B := lruSet T t) (anyOfGet_ok (G := fun clock : {clock : Nat → T // StrictMono clock} =>
        (lruOf clock.1 t).gets) (i := clock) (decoratorGet_ok (D := lru V clock.1) (C := t.block) (G := t.gets) g1))
    · rw [g3]
      exact cached_miss (B := lruSet T t) (anyOfGet_ok (G := fun clock : {clock : Nat → T // StrictMono clock} =>
        (lruOf clock.1 t).gets) (i := clock) (decoratorGet_ok (D := lru V clock.1) (C := t.block) (G := t.gets) g1))
        (anyOfPush_ok (decoratorPush_ok (D := lru V clock.1) (l := [(k, fetch k)]) g2))
  have hnil : ∀ i (s : (lruSet T t).State) l, R i s l → ∃ out s', (lruSet T t).push s [] = .ok (out, s') ∧ R i s' l := by
    rintro i ⟨clock, s, fac⟩ l hR
    obtain ⟨out, s', h1, h2⟩ := holds_push_nil (D := lru V clock.1) (A := lruAccess V clock.1) ht (lru_stamps clock.1)
      (lru_accesses clock.1) (fun a b => lru_le a b) clock.2 hR
    exact ⟨out.map (strip (lru V clock.1)), ⟨clock, (s', fac)⟩,
      anyOfPush_ok (decoratorPush_ok (D := lru V clock.1) (l := []) h1), h2⟩
  obtain ⟨sets', h1, h2, h3⟩ := cached_assocAll (R := R) (step := fun i => lruStep (ways i)) hash hstep hnil hn ks
    (sets.map (lruSetNew t)) [] (by simp) (by
      intro i c hc
      rw [List.getElem?_map] at hc
      cases hx : sets[i]? with
      | none => rw [hx] at hc; cases hc
      | some x =>
        rw [hx] at hc
        cases hc
        have hmem := List.mem_of_getElem? hx
        exact holds_new (D := lru V x.2.1) (stamp := fun i : LruCell V T => i.timestamp) (clock := x.2.1) (read := id)
          (t := t) fetch (0 : Nat) (hi x hmem) (hroom x hmem) (hw i x hx))
  refine ⟨sets', ?_, h2, ?_⟩
  · rw [← hitsBySet_lru]; exact h1
  · intro i c hc
    obtain ⟨_, -, -, -, -, -, -, h⟩ := h3 i c hc
    rw [← held_lru]
    exact h

/-! ## Concrete caches -/

theorem twoSets {S : Type} {x : S} (c : S) (hc : c ∈ [x, x]) : x = c := by
  rcases List.mem_cons.1 hc with h | hc
  · exact h.symm
  · rcases List.mem_cons.1 hc with h | hc
    · exact h.symm
    · cases hc

/-- Two sets of two levels. -/
example (ks : List Nat) := C97_lru (id : Nat → Nat) strictMono_id (twoTiers lruSorter)
  ⟨lruSorter_array, lruSorter_array⟩ id [(Array.new 1, Array.new 2), (Array.new 1, Array.new 2)] (by simp)
  (fun c hc => twoSets c hc ▸ ⟨⟨1, rfl⟩, ⟨2, rfl⟩⟩)
  (fun c hc => twoSets c hc ▸ ⟨Nat.zero_lt_one, trivial, trivial⟩)
  (fun _ => 3) (fun i c hc => twoSets c (List.mem_of_getElem? hc) ▸ rfl) (fun k => k * 10) ks

example (ks : List Nat) := C97_fifo fifoSorter fifoSorter fifoSorter_byValue fifoSorter_byValue id [1, 2] (by simp)
  (fun k => k * 10) ks

/-- Two sets which read the clock at even and odd times. -/
example (ks : List Nat) := C97_lru_sets (T := Nat) (Stack.array (fun _ => 1) lruSorter lruSorter) lruSorter_array id
  [(Array.new 2, ⟨(2 * ·), fun a b h => by simpa using h⟩),
    (Array.new 1, ⟨(2 * · + 1), fun a b h => by simpa using h⟩)] (by simp)
  (by
    intro c hc
    rcases List.mem_cons.1 hc with rfl | hc
    · exact ⟨2, rfl⟩
    · rcases List.mem_cons.1 hc with rfl | hc
      · exact ⟨1, rfl⟩
      · cases hc) (fun _ _ => trivial) (fun i => 2 - i)
  (by
    intro i c hc
    match i with
    | 0 => cases hc; rfl
    | 1 => cases hc; rfl
    | i + 2 => cases hc) (fun k => k * 10) ks

/-- Two sets of two keys: 5 and 7 do not evict 2, though a cache of 4 keys last requested would keep 1 and a
single set of two would not keep 2. -/
example : (do
      let (ans, _) ← cachedAll (lruCells id (Stack.associative id (Stack.array (fun _ => 1) lruSorter lruSorter)))
        (fun k => k * 10) ([Array.new 2, Array.new 2], (0 : Nat)) [1, 2, 3, 5, 7, 2, 1]
      return ans : Res (List (Bool × Nat))) =
    .ok [(false, 10), (false, 20), (false, 30), (false, 50), (false, 70), (true, 20), (false, 10)] := by
  decide +kernel

end Byoc.SetProps
