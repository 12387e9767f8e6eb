import Verif.Proofs.SeqCells

/-! Containers whose cells point to elements that stay where they are. -/

namespace Byoc.SeqCells

variable {K V : Type}

theorem findKey_modify [DecidableEq K] (l : List (K × V)) (i : Nat) (v : V) (k : K) :
    findKey (l.modify i fun e => (e.1, v)) k = findKey l k := by
  unfold findKey
  induction l generalizing i with
  | nil => cases i <;> rfl
  | cons e l ih =>
    cases i with
    | zero => simp [List.modify_zero_cons, List.findIdx?_cons]
    | succ i => simp [List.modify_succ_cons, List.findIdx?_cons, ih]

theorem findKey_some [DecidableEq K] {l : List (K × V)} {i : Nat} {k : K} (h : findKey l k = some i) :
    ∃ v, l[i]? = some (k, v) := by
  unfold findKey at h
  rw [List.findIdx?_eq_some_iff_getElem] at h
  obtain ⟨hi, h1, -⟩ := h
  refine ⟨l[i].2, ?_⟩
  rw [List.getElem?_eq_getElem hi]
  have : l[i].1 = k := by simpa using h1
  rw [← this]

theorem modify_eq_set {l : List (K × V)} {i : Nat} {k : K} {v w : V} (h : l[i]? = some (k, v)) :
    l.modify i (fun e => (e.1, w)) = l.set i (k, w) := by
  apply List.ext_getElem?
  intro j
  rw [List.getElem?_modify, List.getElem?_set]
  by_cases hij : i = j
  · subst hij
    have hlt : i < l.length := (List.getElem?_eq_some_iff.1 h).1
    rw [h]; simp [hlt]
  · simp [hij]

theorem any_modify [DecidableEq K] (l : List (K × V)) (i : Nat) (v : V) (k : K) :
    ((l.modify i fun e => (e.1, v)).any fun e => decide (e.1 = k)) = l.any fun e => decide (e.1 = k) := by
  induction l generalizing i with
  | nil => cases i <;> rfl
  | cons e l ih =>
    cases i with
    | zero => simp [List.modify_zero_cons]
    | succ i => simp [List.modify_succ_cons, ih]

theorem set_same {l : List (K × V)} {i : Nat} {e : K × V} (h : l[i]? = some e) : l.set i e = l := by
  apply List.ext_getElem?
  intro j
  rw [List.getElem?_set]
  by_cases hij : i = j
  · subst hij
    have hlt : i < l.length := (List.getElem?_eq_some_iff.1 h).1
    rw [h]
    simp [hlt]
  · simp [hij]

theorem array_getMut_id [DecidableEq K] (a : Array K V) (k : K) :
    Array.getMut a k id = ((findKey a.values k).bind fun i => a.values[i]?.map Prod.snd, a) := by
  cases h : findKey a.values k with
  | none => simp [Array.getMut, h]
  | some i =>
    obtain ⟨v, hv⟩ := findKey_some h
    simp only [Array.getMut, h, hv, id, set_same hv, Option.bind_some, Option.map_some]

theorem array_getMut_write [DecidableEq K] (a : Array K V) (k : K) (i : Nat) (v : V)
    (h : findKey a.values k = some i) : ∃ u, Array.getMut a k (fun _ => v) =
      (some u, { a with values := a.values.modify i fun e => (e.1, v) }) := by
  obtain ⟨u, hu⟩ := findKey_some h
  refine ⟨u, ?_⟩
  simp only [Array.getMut, h, hu]
  rw [modify_eq_set hu]

theorem ok_fst {α β : Type} {a a' : α} {b b' : β} (h : Res.ok (a, b) = Res.ok (a', b')) : a = a' := by
  cases h; rfl

/-- The cells of an Array. -/
theorem array_pins [LinearOrder K] (sz : K × V → Nat) (srt srtS : Sorter (K × V)) :
    Pins (arrayHandles sz srt srtS) (arrayGet sz srt srtS) (fun _ => True) where
  get (a : Array K V) k _ := by
    refine ⟨findKey a.values k, rfl, rfl, congrArg Res.ok (array_getMut_id a k), congrArg Res.ok (array_getMut_id a k), ?_⟩
    cases h : findKey a.values k with
    | none => rfl
    | some i =>
      obtain ⟨v, hv⟩ := findKey_some h
      change (a.values[i]?.map Prod.snd).isSome = true
      rw [hv]; rfl
  write (a : Array K V) k (p : Nat) v _ h := by
    have h' : findKey a.values k = some p := ok_fst h
    obtain ⟨u, hu⟩ := array_getMut_write a k p v h'
    refine ⟨{ a with values := a.values.modify p fun e => (e.1, v) }, u, rfl, trivial, congrArg Res.ok hu, rfl, rfl, ?_, ?_⟩
    · intro k' b hb
      have hb' : a.contains k' = b := ok_fst hb
      refine congrArg Res.ok (Prod.ext ?_ rfl)
      exact (any_modify _ _ _ _).trans hb'
    · intro k' o ho
      have ho' : findKey a.values k' = o := ok_fst ho
      exact congrArg Res.ok (Prod.ext ((findKey_modify _ _ _ _).trans ho') rfl)
  miss (a : Array K V) k v _ h := by
    have h' : findKey a.values k = none := ok_fst h
    have e : Array.getMut a k (fun _ => v) = (none, a) := by simp [Array.getMut, h']
    exact congrArg Res.ok e
  drop _ _ := rfl
  contains _ _ _ := ⟨_, rfl⟩
  push _ _ _ _ _ _ := trivial

variable {C : Block K V} {X : Cells C} {G : GetOps C} {I : C.State → Prop}

/-- The cells of a FlushStopper. -/
theorem flushStopper_pins (h : Pins X G I) : Pins (flushStopperHandles X) (flushStopperGet G) I where
  get := h.get
  write := h.write
  miss := h.miss
  drop := h.drop
  contains := h.contains
  push := h.push

/-! ### Batch -/

/-- Dereference in a list of containers. -/
def derefs (X : Cells C) (s : List C.State) (c : Nat × X.Cell) : Option V := s[c.1]?.bind fun x => X.deref x c.2

theorem derefs_cons (c : C.State) (cs : List C.State) (o : Option (Nat × X.Cell)) :
    (o.map fun x => (x.1 + 1, x.2)).bind (derefs X (c :: cs)) = o.bind (derefs X cs) := by
  cases o <;> simp [derefs]

theorem batch_get (h : Pins X G I) (k : K) : ∀ s : List C.State, (∀ c ∈ s, I c) →
    ∃ o, batchOpen X.get s k = .ok (o, s) ∧ batchOpen X.getMut s k = .ok (o, s) ∧
      batchAccess G.get s k id = .ok (o.bind (derefs X s), s) ∧
      batchAccess G.getMut s k id = .ok (o.bind (derefs X s), s) ∧
      (o.bind (derefs X s)).isSome = o.isSome := by
  intro s
  induction s with
  | nil => exact fun _ => ⟨none, rfl, rfl, rfl, rfl, rfl⟩
  | cons c cs ih =>
    intro hI
    obtain ⟨o, h1, h2, h3, h4, h5⟩ := h.get c k (hI c (List.mem_cons_self ..))
    cases o with
    | some p =>
      obtain ⟨u, hu⟩ := Option.isSome_iff_exists.1 (h5.trans rfl)
      simp only [Option.bind_some] at h3 h4 hu
      rw [hu] at h3 h4
      refine ⟨some (0, p), ?_, ?_, ?_, ?_, ?_⟩ <;>
        simp [batchOpen, batchAccess, h1, h2, h3, h4, derefs, hu]
    | none =>
      simp only [Option.bind_none] at h3 h4
      obtain ⟨o, g1, g2, g3, g4, g5⟩ := ih fun c hc => hI c (List.mem_cons_of_mem _ hc)
      refine ⟨o.map fun x => (x.1 + 1, x.2), ?_, ?_, ?_, ?_, ?_⟩
      · simp [batchOpen, h1, g1]
      · simp [batchOpen, h2, g2]
      · rw [derefs_cons]; simp [batchAccess, h3, g3]
      · rw [derefs_cons]; simp [batchAccess, h4, g4]
      · rw [derefs_cons, g5]; simp

theorem batch_contains (h : Pins X G I) (k : K) : ∀ s : List C.State, (∀ c ∈ s, I c) →
    ∃ b, Batch.contains C s k = .ok (b, s) := by
  intro s
  induction s with
  | nil => exact fun _ => ⟨false, rfl⟩
  | cons c cs ih =>
    intro hI
    obtain ⟨b, hb⟩ := h.contains c k (hI c (List.mem_cons_self ..))
    obtain ⟨b', hb'⟩ := ih fun c hc => hI c (List.mem_cons_of_mem _ hc)
    cases b with
    | true => exact ⟨true, by simp [Batch.contains, hb]⟩
    | false => exact ⟨b', by simp [Batch.contains, hb, hb']⟩

theorem batch_write (h : Pins X G I) (k : K) (p : X.Cell) (v : V) : ∀ (s : List C.State) (i : Nat), (∀ c ∈ s, I c) →
    batchOpen X.get s k = .ok (some (i, p), s) →
    ∃ x x' u, s[i]? = some x ∧ X.write x p v = (p, x') ∧ I x' ∧
      batchAccess G.getMut s k (fun _ => v) = .ok (some u, s.set i x') ∧
      C.capacity x' = C.capacity x ∧ C.size x' = C.size x ∧
      (∀ k' b, C.contains x k' = .ok (b, x) → C.contains x' k' = .ok (b, x')) ∧
      ∀ k' o, X.get x k' = .ok (o, x) → X.get x' k' = .ok (o, x') := by
  intro s
  induction s with
  | nil => intro i _ he; simp [batchOpen] at he
  | cons c cs ih =>
    intro i hI he
    have hIc := hI c (List.mem_cons_self ..)
    obtain ⟨o, h1, h2, h3, h4, h5⟩ := h.get c k hIc
    cases o with
    | some q =>
      simp only [batchOpen, h1, Res.ok_bind, Res.pure_eq, Res.ok.injEq, Prod.mk.injEq, Option.some.injEq, and_true] at he
      obtain ⟨rfl, rfl⟩ := he
      obtain ⟨x', u, g1, g2, g3, g4, g5, g6, g7⟩ := h.write c k q v hIc h1
      exact ⟨c, x', u, rfl, g1, g2, by simp [batchAccess, g3], g4, g5, g6, g7⟩
    | none =>
      have hI' : ∀ c ∈ cs, I c := fun c hc => hI c (List.mem_cons_of_mem _ hc)
      obtain ⟨o, e1, -⟩ := batch_get h k cs hI'
      simp only [batchOpen, h1, e1, Res.ok_bind, Res.pure_eq, Res.ok.injEq, Prod.mk.injEq, and_true,
        Option.map_eq_some_iff] at he
      obtain ⟨⟨j, q⟩, rfl, hj⟩ := he
      obtain ⟨hj1, hj2⟩ := hj
      subst hj1 hj2
      obtain ⟨x, x', u, g0, g1, g2, g3, g4, g5, g6, g7⟩ := ih j hI' e1
      refine ⟨x, x', u, by simpa using g0, g1, g2, ?_, g4, g5, g6, g7⟩
      -- the first container does not have the key: writing changes nothing
      have hn : G.getMut c k (fun _ => v) = .ok (none, c) := h.miss c k v hIc h1
      simp [batchAccess, hn, g3]

theorem sum_set_same {S : Type} (f : S → Nat) {s : List S} {i : Nat} {x x' : S} (h : s[i]? = some x)
    (hf : f x' = f x) : ((s.set i x').map f).sum = (s.map f).sum := by
  have := Lock.sum_set f s i x x' h
  omega

theorem mem_set_all {S : Type} {J : S → Prop} {s : List S} {i : Nat} {x' : S} (h : ∀ c ∈ s, J c) (hx : J x') :
    ∀ c ∈ s.set i x', J c := by
  intro c hc
  rcases List.mem_or_eq_of_mem_set hc with hc | rfl
  · exact h c hc
  · exact hx

theorem batch_contains_set (h : Pins X G I) {x x' : C.State} (k : K)
    (hx : ∀ b, C.contains x k = .ok (b, x) → C.contains x' k = .ok (b, x')) :
    ∀ (s : List C.State) (i : Nat) b, (∀ c ∈ s, I c) → s[i]? = some x → Batch.contains C s k = .ok (b, s) →
      Batch.contains C (s.set i x') k = .ok (b, s.set i x') := by
  intro s
  induction s with
  | nil => intro i b _ hi; simp at hi
  | cons c cs ih =>
    intro i b hI hi he
    obtain ⟨b0, hb0⟩ := h.contains c k (hI c (List.mem_cons_self ..))
    have hI' : ∀ c ∈ cs, I c := fun c hc => hI c (List.mem_cons_of_mem _ hc)
    obtain ⟨b1, hb1⟩ := batch_contains h k cs hI'
    cases i with
    | zero =>
      simp only [List.getElem?_cons_zero, Option.some.injEq] at hi
      subst hi
      have := hx _ hb0
      cases b0 <;> simp [Batch.contains, hb0, hb1] at he <;> simp [Batch.contains, this, hb1, he]
    | succ i =>
      simp only [List.getElem?_cons_succ] at hi
      have := ih i b1 hI' hi hb1
      cases b0 <;> simp [Batch.contains, hb0, hb1] at he <;> simp [Batch.contains, hb0, this, he]

theorem batch_open_set (h : Pins X G I) {x x' : C.State} (k : K)
    (hx : ∀ o, X.get x k = .ok (o, x) → X.get x' k = .ok (o, x')) :
    ∀ (s : List C.State) (i : Nat) o, (∀ c ∈ s, I c) → s[i]? = some x → batchOpen X.get s k = .ok (o, s) →
      batchOpen X.get (s.set i x') k = .ok (o, s.set i x') := by
  intro s
  induction s with
  | nil => intro i b _ hi; simp at hi
  | cons c cs ih =>
    intro i o hI hi he
    obtain ⟨o0, hb0, -⟩ := h.get c k (hI c (List.mem_cons_self ..))
    have hI' : ∀ c ∈ cs, I c := fun c hc => hI c (List.mem_cons_of_mem _ hc)
    obtain ⟨o1, hb1, -⟩ := batch_get h k cs hI'
    cases i with
    | zero =>
      simp only [List.getElem?_cons_zero, Option.some.injEq] at hi
      subst hi
      have := hx _ hb0
      cases o0 <;> simp [batchOpen, hb0, hb1] at he <;> simp [batchOpen, this, hb1, he]
    | succ i =>
      simp only [List.getElem?_cons_succ] at hi
      have := ih i o1 hI' hi hb1
      cases o0 <;> simp [batchOpen, hb0, hb1] at he <;> simp [batchOpen, hb0, this, he]

theorem batch_miss (h : Pins X G I) (k : K) (v : V) : ∀ s : List C.State, (∀ c ∈ s, I c) →
    batchOpen X.get s k = .ok (none, s) → batchAccess G.getMut s k (fun _ => v) = .ok (none, s) := by
  intro s
  induction s with
  | nil => exact fun _ _ => rfl
  | cons c cs ih =>
    intro hI he
    have hIc := hI c (List.mem_cons_self ..)
    obtain ⟨o0, hb0, -⟩ := h.get c k hIc
    have hI' : ∀ c ∈ cs, I c := fun c hc => hI c (List.mem_cons_of_mem _ hc)
    obtain ⟨o1, hb1, -⟩ := batch_get h k cs hI'
    cases o0 with
    | some p => simp [batchOpen, hb0] at he
    | none =>
      cases o1 with
      | some q => simp [batchOpen, hb0, hb1] at he
      | none => simp [batchAccess, h.miss c k v hIc hb0, ih hI' hb1]

theorem batch_pushLoop (h : Pins X G I) : ∀ (s : List C.State) (l : List (K × V)) out rest used, (∀ c ∈ s, I c) →
    Batch.pushLoop C s l = .ok (out, rest, used) → ∀ c ∈ rest ++ used, I c := by
  intro s
  induction s with
  | nil =>
    intro l out rest used _ he
    cases l with
    | nil => cases he; simp
    | cons v vs => cases he; simp
  | cons c cs ih =>
    intro l out rest used hI he
    cases l with
    | nil => cases he; simpa using hI
    | cons v vs =>
      simp only [Batch.pushLoop] at he
      cases h1 : C.push c (v :: vs) with
      | panic => simp [h1] at he
      | ok r =>
        obtain ⟨o1, c1⟩ := r
        simp only [h1, Res.ok_bind] at he
        cases h2 : Batch.pushLoop C cs o1 with
        | panic => simp [h2] at he
        | ok r =>
          obtain ⟨o2, r2, u2⟩ := r
          simp only [h2, Res.ok_bind, Res.pure_eq, Res.ok.injEq, Prod.mk.injEq] at he
          obtain ⟨rfl, rfl, rfl⟩ := he
          have hc1 := h.push c _ _ _ (hI c (List.mem_cons_self ..)) h1
          have := ih _ _ _ _ (fun c hc => hI c (List.mem_cons_of_mem _ hc)) h2
          intro d hd
          simp only [List.mem_append, List.mem_cons] at hd
          rcases hd with hd | rfl | hd
          · exact this d (by simp [hd])
          · exact hc1
          · exact this d (by simp [hd])

theorem list_drop (h : Pins X G I) (s : List C.State) (p : Nat × X.Cell) :
    (match s[p.1]? with
      | none => Res.ok s
      | some x => do
        let x ← X.drop x p.2
        return s.set p.1 x) = .ok s := by
  cases hp : s[p.1]? with
  | none => rfl
  | some x =>
    obtain ⟨hi, rfl⟩ := List.getElem?_eq_some_iff.1 hp
    simp [h.drop]

/-- The cells of a Batch. -/
theorem batch_pins (h : Pins X G I) : Pins (batchHandles X) (batchGet G) (fun s : List C.State => ∀ c ∈ s, I c) where
  get s k hI := batch_get h k s hI
  write (s : List C.State) k p v hI he := by
    obtain ⟨i, p⟩ := p
    obtain ⟨x, x', u, g0, g1, g2, g3, g4, g5, g6, g7⟩ := batch_write h k p v s i hI he
    refine ⟨s.set i x', u, ?_, mem_set_all hI g2, g3, sum_set_same _ g0 g4, sum_set_same _ g0 g5, ?_, ?_⟩
    · simp [batchHandles, g0, g1]
    · exact fun k' b hb => batch_contains_set h k' (g6 k') s i b hI g0 hb
    · exact fun k' o ho => batch_open_set h k' (g7 k') s i o hI g0 ho
  miss s k v hI he := batch_miss h k v s hI he
  drop (s : List C.State) p := list_drop h s p
  contains s k hI := batch_contains h k s hI
  push s l out s' hI he := by
    simp only [batch, Batch.push] at he
    cases h1 : Batch.pushLoop C s l with
    | panic => simp [h1] at he
    | ok r =>
      obtain ⟨o, r, u⟩ := r
      simp only [h1, Res.ok_bind, Res.pure_eq] at he
      cases he
      exact batch_pushLoop h s l _ _ _ hI h1

/-! ### Associative -/

theorem set_at (hash : K → Nat) {s : List C.State} (hne : s ≠ []) (k : K) :
    Associative.set hash s.length k = .ok (hash k % s.length) ∧ ∃ x, s[hash k % s.length]? = some x := by
  have hpos : 0 < s.length := List.length_pos_of_ne_nil hne
  refine ⟨by simp [Associative.set, Nat.ne_of_gt hpos], ?_⟩
  exact ⟨_, List.getElem?_eq_getElem (Nat.mod_lt _ hpos)⟩

theorem set_get {S : Type} {s : List S} {i : Nat} {x : S} (h : s[i]? = some x) : s.set i x = s := by
  obtain ⟨hi, rfl⟩ := List.getElem?_eq_some_iff.1 h
  simp

theorem assoc_pushLoop (h : Pins X G I) : ∀ (s : List C.State) (gs : List (List (K × V))) out s', (∀ c ∈ s, I c) →
    Associative.pushLoop C s gs = .ok (out, s') → (s' ≠ [] ↔ s ≠ []) ∧ ∀ c ∈ s', I c := by
  intro s
  induction s with
  | nil =>
    intro gs out s' _ he
    cases gs <;> (cases he; simp)
  | cons c cs ih =>
    intro gs out s' hI he
    cases gs with
    | nil => cases he; exact ⟨Iff.rfl, hI⟩
    | cons g gs =>
      simp only [Associative.pushLoop] at he
      cases h1 : C.push c g with
      | panic => simp [h1] at he
      | ok r =>
        obtain ⟨o1, c1⟩ := r
        simp only [h1, Res.ok_bind] at he
        cases h2 : Associative.pushLoop C cs gs with
        | panic => simp [h2] at he
        | ok r =>
          obtain ⟨o2, cs2⟩ := r
          simp only [h2, Res.ok_bind, Res.pure_eq, Res.ok.injEq, Prod.mk.injEq] at he
          obtain ⟨rfl, rfl⟩ := he
          refine ⟨by simp, ?_⟩
          intro d hd
          rcases List.mem_cons.1 hd with rfl | hd
          · exact h.push c _ _ _ (hI c (List.mem_cons_self ..)) h1
          · exact (ih _ _ _ (fun c hc => hI c (List.mem_cons_of_mem _ hc)) h2).2 d hd

theorem assoc_get (h : Pins X G I) (hash : K → Nat) (s : List C.State) (k : K) (hne : s ≠ []) (hI : ∀ c ∈ s, I c) :
    ∃ o, associativeOpen hash X.get s k = .ok (o, s) ∧ associativeOpen hash X.getMut s k = .ok (o, s) ∧
      associativeAccess hash G.get s k id = .ok (o.bind (derefs X s), s) ∧
      associativeAccess hash G.getMut s k id = .ok (o.bind (derefs X s), s) ∧
      (o.bind (derefs X s)).isSome = o.isSome := by
  obtain ⟨e1, x, e2⟩ := set_at (C := C) hash hne k
  obtain ⟨o, h1, h2, h3, h4, h5⟩ := h.get x k (hI x (List.mem_of_getElem? e2))
  have hd : (o.map fun p => (hash k % s.length, p)).bind (derefs X s) = o.bind (X.deref x) := by
    cases o <;> simp [derefs, e2]
  refine ⟨o.map fun p => (hash k % s.length, p), ?_, ?_, ?_, ?_, ?_⟩
  · simp [associativeOpen, e1, e2, h1, set_get e2, Res.unwrap]
  · simp [associativeOpen, e1, e2, h2, set_get e2, Res.unwrap]
  · rw [hd]; simp [associativeAccess, e1, e2, h3, set_get e2, Res.unwrap]
  · rw [hd]; simp [associativeAccess, e1, e2, h4, set_get e2, Res.unwrap]
  · rw [hd, h5]; simp

/-- Opening the cell of `k` looks at the set of `k` only. -/
theorem assoc_open_iff (h : Pins X G I) (hash : K → Nat) {s : List C.State} {k : K} {x : C.State} (hne : s ≠ [])
    (hI : ∀ c ∈ s, I c) (hx : s[hash k % s.length]? = some x) (o : Option (Nat × X.Cell)) :
    associativeOpen hash X.get s k = .ok (o, s) ↔
      ∃ o', X.get x k = .ok (o', x) ∧ o = o'.map fun p => (hash k % s.length, p) := by
  obtain ⟨e1, -⟩ := set_at (C := C) hash hne k
  obtain ⟨o', h1, -⟩ := h.get x k (hI x (List.mem_of_getElem? hx))
  constructor
  · intro he
    simp only [associativeOpen, e1, hx, h1, set_get hx, Res.unwrap, Res.ok_bind, Res.pure_eq, Res.ok.injEq,
      Prod.mk.injEq, and_true] at he
    exact ⟨o', h1, he.symm⟩
  · rintro ⟨o'', h2, rfl⟩
    simp [associativeOpen, e1, hx, h2, set_get hx, Res.unwrap]

theorem assoc_contains_iff (h : Pins X G I) (hash : K → Nat) {s : List C.State} {k : K} {x : C.State} (hne : s ≠ [])
    (hI : ∀ c ∈ s, I c) (hx : s[hash k % s.length]? = some x) (b : Bool) :
    (associative hash C).contains s k = .ok (b, s) ↔ C.contains x k = .ok (b, x) := by
  obtain ⟨e1, -⟩ := set_at (C := C) hash hne k
  obtain ⟨b', h1⟩ := h.contains x k (hI x (List.mem_of_getElem? hx))
  have : (associative hash C).contains s k = .ok (b', s) := by
    simp [associative, e1, hx, h1, set_get hx, Res.unwrap]
  rw [this, h1]
  constructor <;> (intro e; cases e; rfl)

/-- The cells of an Associative with at least one set. -/
theorem associative_pins (h : Pins X G I) (hash : K → Nat) : Pins (associativeHandles hash X) (associativeGet hash G)
    (fun s : List C.State => s ≠ [] ∧ ∀ c ∈ s, I c) where
  get s k hI := assoc_get h hash s k hI.1 hI.2
  write (s : List C.State) k p v hI he := by
    obtain ⟨hne, hI⟩ := hI
    obtain ⟨e1, x, e2⟩ := set_at (C := C) hash hne k
    have hIx := hI x (List.mem_of_getElem? e2)
    obtain ⟨o, h1, h2⟩ := (assoc_open_iff h hash hne hI e2 _).1 he
    cases o with
    | none => simp at h2
    | some q =>
      cases h2
      obtain ⟨x', u, g1, g2, g3, g4, g5, g6, g7⟩ := h.write x k q v hIx h1
      have hne' : s.set (hash k % s.length) x' ≠ [] := by simpa using hne
      have hI' := mem_set_all (i := hash k % s.length) hI g2
      have hlt : hash k % s.length < s.length := (List.getElem?_eq_some_iff.1 e2).1
      refine ⟨s.set (hash k % s.length) x', u, ?_, ⟨hne', hI'⟩, ?_, sum_set_same _ e2 g4, sum_set_same _ e2 g5, ?_, ?_⟩
      · simp [associativeHandles, e2, g1]
      · have e : associativeAccess hash G.getMut s k (fun _ => v) = .ok (some u, s.set (hash k % s.length) x') := by
          simp [associativeAccess, e1, e2, g3, Res.unwrap]
        exact e
      · intro k' b hb
        obtain ⟨-, y, f2⟩ := set_at (C := C) hash hne k'
        have hy := (assoc_contains_iff h hash hne hI f2 b).1 hb
        by_cases hk : hash k' % s.length = hash k % s.length
        · rw [hk, e2] at f2
          cases f2
          refine (assoc_contains_iff h hash (s := s.set (hash k % s.length) x') (x := x') hne' hI' ?_ b).2 (g6 _ _ hy)
          rw [List.length_set, hk, List.getElem?_set]; simp [hlt]
        · refine (assoc_contains_iff h hash (s := s.set (hash k % s.length) x') (x := y) hne' hI' ?_ b).2 hy
          rw [List.length_set, List.getElem?_set_ne (Ne.symm hk), f2]
      · intro k' o ho
        obtain ⟨-, y, f2⟩ := set_at (C := C) hash hne k'
        obtain ⟨o', hy, rfl⟩ := (assoc_open_iff h hash hne hI f2 o).1 ho
        have hlen : (s.set (hash k % s.length) x').length = s.length := by simp
        by_cases hk : hash k' % s.length = hash k % s.length
        · rw [hk, e2] at f2
          cases f2
          refine (assoc_open_iff h hash (s := s.set (hash k % s.length) x') (x := x') hne' hI' ?_ _).2
            ⟨o', g7 _ _ hy, by rw [hlen]⟩
          rw [List.length_set, hk, List.getElem?_set]; simp [hlt]
        · refine (assoc_open_iff h hash (s := s.set (hash k % s.length) x') (x := y) hne' hI' ?_ _).2
            ⟨o', hy, by rw [hlen]⟩
          rw [List.length_set, List.getElem?_set_ne (Ne.symm hk), f2]
  miss (s : List C.State) k v hI he := by
    obtain ⟨hne, hI⟩ := hI
    obtain ⟨e1, x, e2⟩ := set_at (C := C) hash hne k
    obtain ⟨o, h1, h2⟩ := (assoc_open_iff h hash hne hI e2 _).1 he
    cases o with
    | some q => simp at h2
    | none =>
      have := h.miss x k v (hI x (List.mem_of_getElem? e2)) h1
      have e : associativeAccess hash G.getMut s k (fun _ => v) = .ok (none, s) := by
        simp [associativeAccess, e1, e2, this, set_get e2, Res.unwrap]
      exact e
  drop (s : List C.State) p := list_drop h s p
  contains (s : List C.State) k hI := by
    obtain ⟨hne, hI⟩ := hI
    obtain ⟨e1, x, e2⟩ := set_at (C := C) hash hne k
    obtain ⟨b, hb⟩ := h.contains x k (hI x (List.mem_of_getElem? e2))
    exact ⟨b, (assoc_contains_iff h hash hne hI e2 b).2 hb⟩
  push (s : List C.State) l out s' hI he := by
    simp only [associative, Associative.push] at he
    cases h1 : Associative.distribute hash Prod.fst s.length l (List.replicate s.length []) with
    | panic => simp [h1] at he
    | ok g =>
      simp only [h1, Res.ok_bind] at he
      obtain ⟨a, b⟩ := assoc_pushLoop h s g _ _ hI.2 he
      exact ⟨a.2 hI.1, b⟩

end Byoc.SeqCells
