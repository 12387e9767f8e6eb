import Verif.Proofs.Stack
import Verif.Props.ArrayProps

/-! # C11 – C13, C16 – C18, C36, C38: combinators over arbitrary containers

The components are *any* containers satisfying the contract (`Lawful` in `Verif/Spec.lean`). -/

namespace Byoc
namespace CombProps

open ArrayProps

variable {K V : Type}

/-! ## Exclusive -/

section
variable [LinearOrder K] {F B : Block K V} {If : F.State → Prop} {Ib : B.State → Prop}
  {ef : F.State → List (K × V)} {eb : B.State → List (K × V)}

/-- **C11 (histories).** Over any two containers obeying the contract, any history of an `Exclusive`
runs without panic, within capacity (the sum of the two), and every element is in the front, in the
back or was handed back. -/
theorem C11_exclusive_history (hF : Lawful F If ef fun _ => True) (hB : Lawful B Ib eb fun _ => True)
    (s : F.State × B.State) (hf : If s.1) (hb : Ib s.2) (ops : List (Op K V)) :
    ∃ out s', (exclusive F B).run s ops = .ok (out, s') ∧
      (exclusive F B).capacity s' = F.capacity s.1 + B.capacity s.2 ∧
      (exclusive F B).size s' ≤ F.capacity s.1 + B.capacity s.2 ∧
      ((ef s'.1 ++ eb s'.2) ++ out).Perm ((ef s.1 ++ eb s.2) ++ ops.flatMap Op.given) := by
  obtain ⟨out, s', h1, h2, h3, h4, h5⟩ :=
    (exclusive_lawful hF hB).run ops (fun op _ => okTrue op) s ⟨hf, hb⟩
  exact ⟨out, s', h1, h4, h3.trans h4.le, h5⟩

/-- **C11 (each call).** The whole contract (lookups, `pop`, `take_multiple`, …) carries over. -/
theorem C11_exclusive_contract (hF : Lawful F If ef fun _ => True)
    (hB : Lawful B Ib eb fun _ => True) :
    Lawful (exclusive F B) (fun s => If s.1 ∧ Ib s.2) (fun s => ef s.1 ++ eb s.2) fun _ => True :=
  exclusive_lawful hF hB

/-- **C11 (flush).** `flush` empties both levels and returns everything. -/
theorem C11_exclusive_flush (hF : Lawful F If ef fun _ => True) (hB : Lawful B Ib eb fun _ => True)
    (fF : Flushes F If ef) (fB : Flushes B Ib eb) (s : F.State × B.State) (hf : If s.1)
    (hb : Ib s.2) :
    ∃ out s', (exclusive F B).flush s = .ok (out, s') ∧ ef s'.1 = [] ∧ eb s'.2 = [] ∧
      out.Perm (ef s.1 ++ eb s.2) := by
  obtain ⟨out, s', h1, h2, h3⟩ :=
    exclusive_flushes hF.toCore hB.toCore fF fB s ⟨hf, hb⟩
  have := List.append_eq_nil_iff.1 h2
  exact ⟨out, s', h1, this.1, this.2, h3⟩

/-- **C51 (push).** `push` offers everything to the front first; only what the front hands back
reaches the back, and only what the back hands back is returned. -/
theorem C51_exclusive_push_front_first (s : F.State × B.State) (l out : List (K × V))
    (s' : F.State × B.State) :
    (exclusive F B).push s l = .ok (out, s') ↔
      ∃ popped, F.push s.1 l = .ok (popped, s'.1) ∧ B.push s.2 popped = .ok (out, s'.2) := by
  constructor
  · intro h
    simp only [exclusive] at h
    cases h1 : F.push s.1 l with
    | panic => simp [h1] at h
    | ok r =>
      obtain ⟨p, f⟩ := r
      cases h2 : B.push s.2 p with
      | panic => simp [h1, h2] at h
      | ok r =>
        obtain ⟨o, b⟩ := r
        simp only [h1, h2, Res.ok_bind, Res.pure_eq, Res.ok.injEq] at h
        cases h
        exact ⟨p, rfl, h2⟩
  · rintro ⟨p, h1, h2⟩
    simp [exclusive, h1, h2]

/-- **C51 (pop).** `pop` evicts from the back first: the front is untouched unless the back could not
free enough, in which case the back is empty and the front is asked for exactly what is missing. -/
theorem C51_exclusive_pop_back_first (hF : Lawful F If ef fun _ => True)
    (hB : Lawful B Ib eb fun _ => True) (s : F.State × B.State) (hf : If s.1) (hb : Ib s.2) (n : Nat) :
    ∃ out s', (exclusive F B).pop s n = .ok (out, s') ∧
      ∃ fromBack, B.pop s.2 n = .ok (fromBack, s'.2) ∧ B.size s'.2 ≤ B.size s.2 ∧
      ((n ≤ B.size s.2 - B.size s'.2 ∧ s'.1 = s.1 ∧ out = fromBack) ∨
       (B.size s.2 - B.size s'.2 < n ∧ eb s'.2 = [] ∧
        ∃ fromFront, F.pop s.1 (n - (B.size s.2 - B.size s'.2)) = .ok (fromFront, s'.1) ∧
          out = fromBack ++ fromFront)) := by
  obtain ⟨v, b, h1, h2, h3, h4, h5⟩ := hB.pop s.2 n hb
  have hle : B.size b ≤ B.size s.2 := by
    rcases h5 with h5 | h5
    · omega
    · rw [hB.empty_size b h2 h5]; omega
  by_cases hn : B.size s.2 - B.size b < n
  · obtain ⟨v', f, g1, -⟩ := hF.pop s.1 (n - (B.size s.2 - B.size b)) hf
    refine ⟨v ++ v', (f, b), by simp [exclusive, h1, Res.sub_ok hle, hn, g1], v, h1, hle,
      Or.inr ⟨hn, ?_, v', g1, rfl⟩⟩
    rcases h5 with h5 | h5
    · omega
    · exact h5
  · exact ⟨v, (s.1, b), by simp [exclusive, h1, Res.sub_ok hle, hn], v, h1, hle,
      Or.inl ⟨Nat.le_of_not_lt hn, rfl, rfl⟩⟩

end

/-! ### Exclusive of Arrays: access moves elements to the front -/

section
variable [LinearOrder K] (srt srtS srt' srtS' : Sorter (K × V))

/-- `Exclusive<Array, Array>` with unit element sizes. -/
abbrev twoLevels : Block K V :=
  exclusive (arrayBlock (fun _ => 1) srt srtS) (arrayBlock (fun _ => 1) srt' srtS')

/-- Its `get`/`get_mut`. -/
abbrev twoLevelsGet : GetOps (twoLevels srt srtS srt' srtS') :=
  exclusiveGet (arrayGet (fun _ => 1) srt srtS)

/-- **C12.** After any history of calls and accesses, `get(k)` (and `get_mut(k)` writing `f v`)
does not panic, returns a value exactly when `k` is stored, keeps every other element (and the value,
for a plain read), and leaves an element with key `k` in the front level. -/
theorem C12_exclusive_get (n m : Nat) (hn : 0 < n) (cs : List (Call K V)) (out : List (K × V))
    (s : Array K V × Array K V)
    (hr : (twoLevels srt srtS srt' srtS').calls (twoLevelsGet srt srtS srt' srtS')
      (Array.new n, Array.new m) cs = .ok (out, s))
    (k : K) (f : V → V)
    (access : Array K V × Array K V → K → (V → V) → Res (Option V × (Array K V × Array K V)))
    (ha : access = (twoLevelsGet srt srtS srt' srtS').get ∨
      access = (twoLevelsGet srt srtS srt' srtS').getMut) :
    ∃ o s', access s k f = .ok (o, s') ∧
      (o.isSome ↔ HasKey (s.1.values ++ s.2.values) k) ∧
      (o = none → (s'.1.values ++ s'.2.values).Perm (s.1.values ++ s.2.values)) ∧
      (∀ v, o = some v → HasKey s'.1.values k ∧
        ∃ rest, (s.1.values ++ s.2.values).Perm ((k, v) :: rest) ∧
          (s'.1.values ++ s'.2.values).Perm ((k, f v) :: rest)) := by
  let A := arrayBlock (fun _ : K × V => 1) srt srtS
  let B := arrayBlock (fun _ : K × V => 1) srt' srtS'
  have hA := (Array.lawful (fun _ : K × V => 1) srt srtS).withCapacity (fun c => 0 < c)
  have hB := Array.lawful (fun _ : K × V => 1) srt' srtS'
  have sA := (Array.slots srt srtS (K := K) (V := V)).mono (fun s (h : Array.Inv _ s ∧ 0 < A.capacity s) => h.1)
  have sB := Array.slots srt' srtS' (K := K) (V := V)
  have gA := ((Array.getLawful (fun _ : K × V => 1) srt srtS).mono
    (PreF' := fun _ => True) (fun _ _ _ _ => rfl)).withCapacity (fun c => 0 < c)
  have hL := exclusive_lawful hA hB
  have hG := exclusive_getLawful (G := arrayGet (fun _ : K × V => 1) srt srtS) hA.toCore hB.toCore sA sB
    (fun s h => h.2) gA
  obtain ⟨o', s1, h1, h2, -⟩ := hL.calls hG cs
    (fun c _ => by
      cases c with
      | op o => exact okTrue o
      | get k f => trivial
      | getMut k f => trivial)
    (Array.new n, Array.new m) ⟨⟨Array.new_inv _ n, hn⟩, Array.new_inv _ m⟩
  have : s = s1 := by
    exact (Prod.mk.inj (Res.ok.inj (hr.symm.trans h1))).2
  subst this
  have key : ∀ op, AccessLaw A op (fun s => Array.Inv (fun _ => 1) s ∧ 0 < A.capacity s) Array.values
      (fun _ => True) → ∃ o s', exclusiveAccess A B op s k f = .ok (o, s') ∧
      (o.isSome ↔ HasKey (s.1.values ++ s.2.values) k) ∧
      (o = none → (s'.1.values ++ s'.2.values).Perm (s.1.values ++ s.2.values)) ∧
      (∀ v, o = some v → HasKey s'.1.values k ∧
        ∃ rest, (s.1.values ++ s.2.values).Perm ((k, v) :: rest) ∧
          (s'.1.values ++ s'.2.values).Perm ((k, f v) :: rest)) := by
    intro op hop
    obtain ⟨o, s', e1, -, -, -, e2, e3⟩ :=
      exclusiveAccess_spec hA.toCore hB.toCore sA sB (fun s h => h.2) hop s k f h2 trivial
    refine ⟨o, s', e1, ?_, ?_, ?_⟩
    · cases o with
      | none => simpa using e3.1
      | some v =>
        obtain ⟨r, r1, -⟩ := e3
        simpa using hasKey_of_perm_cons r1
    · rintro rfl; exact e3.2
    · rintro v rfl; exact ⟨e2 v rfl, e3⟩
  rcases ha with rfl | rfl
  · exact key _ gA.get
  · exact key _ gA.getMut

end

/-- Non-vacuity of C12: key 1 is in the back after three pushes into a front of 1; `get(1)` brings
it to the front. -/
example : (exclusiveAccess (arrayBlock (fun _ => 1) natSorter natSorter)
      (arrayBlock (fun _ => 1) natSorter natSorter) (arrayGet (fun _ => 1) natSorter natSorter).get
      ({ capacity := 1, totalSize := 1, values := [(3, 30)] },
       { capacity := 2, totalSize := 2, values := [(1, 10), (2, 20)] }) 1 id) =
    .ok (some 10, ({ capacity := 1, totalSize := 1, values := [(1, 10)] },
       { capacity := 2, totalSize := 2, values := [(2, 20), (3, 30)] })) := rfl

/-- The capacity hypothesis is needed: with a front of capacity 0, `get` misses a stored key. -/
example : (exclusiveAccess (arrayBlock (fun _ => 1) natSorter natSorter)
      (arrayBlock (fun _ => 1) natSorter natSorter) (arrayGet (fun _ => 1) natSorter natSorter).get
      ({ capacity := 0, totalSize := 0, values := [] },
       { capacity := 2, totalSize := 1, values := [(1, 10)] }) 1 id) =
    .ok (none, ({ capacity := 0, totalSize := 0, values := [] },
       { capacity := 2, totalSize := 1, values := [(1, 10)] })) := rfl

/-- Unit sizes are needed: with sizes equal to the values, `get(1)` panics: the front evicts an
element that does not fit in the room left in the back. -/
example : (exclusiveAccess (arrayBlock (fun e => e.2) natSorter natSorter)
      (arrayBlock (fun e => e.2) natSorter natSorter) (arrayGet (fun e => e.2) natSorter natSorter).get
      ({ capacity := 3, totalSize := 3, values := [(3, 3)] },
       { capacity := 2, totalSize := 2, values := [(1, 1), (2, 1)] }) 1 id) = .panic := rfl

/-! ### No duplicates between the levels -/

/-- **C13, full statement**: after any history, no key is in both levels. -/
def C13_full : Prop :=
  ∀ (n m : Nat) (ops : List (Op Nat Nat)) (out : List (Nat × Nat)) (s : Array Nat Nat × Array Nat Nat),
    (twoLevels natSorter natSorter natSorter natSorter).run (Array.new n, Array.new m) ops = .ok (out, s) →
    ∀ k, HasKey s.1.values k → ¬ HasKey s.2.values k

/-- The full statement is false: push a key again while the first copy is in the back. -/
theorem C13_false : ¬ C13_full := by
  intro h
  exact h 1 2 [.push [(1, 10)], .push [(2, 5)], .push [(1, 20)]] []
    ({ capacity := 1, totalSize := 1, values := [(1, 20)] },
     { capacity := 2, totalSize := 2, values := [(1, 10), (2, 5)] }) rfl 1 ⟨20, by decide⟩
    ⟨10, by decide⟩

/-- **C13, what holds**: in any two-level container, if no history step pushes a key that is already
stored (or twice in one batch), no key is ever in both levels (accesses may move elements between the
levels). -/
theorem C13_partial [LinearOrder K] {F B : Block K V} {If : F.State → Prop} {Ib : B.State → Prop}
    {ef : F.State → List (K × V)} {eb : B.State → List (K × V)} {G : GetOps F} {PreF : (V → V) → Prop}
    (hF : Lawful F If ef fun _ => True) (hB : Lawful B Ib eb fun _ => True)
    (hG : GetLawful (exclusive F B) (exclusiveGet G) (fun s => If s.1 ∧ Ib s.2)
      (fun s => ef s.1 ++ eb s.2) PreF)
    (s : F.State × B.State) (hs : If s.1 ∧ Ib s.2) (hempty : ef s.1 = [] ∧ eb s.2 = [])
    (cs : List (Call K V)) (hcs : ∀ c ∈ cs, c.Ok (fun _ => True) PreF)
    (hfresh : (exclusive F B).FreshCalls (exclusiveGet G) (fun s => ef s.1 ++ eb s.2) s cs)
    (out : List (K × V)) (s' : F.State × B.State)
    (hr : (exclusive F B).calls (exclusiveGet G) s cs = .ok (out, s')) (k : K) :
    HasKey (ef s'.1) k → ¬ HasKey (eb s'.2) k := by
  intro h1 h2
  have hn := (exclusive_lawful hF hB).fresh hG cs hcs s hs
    (by simp [exclusiveElems, hempty.1, hempty.2]) hfresh out s' hr
  simp only [exclusiveElems, List.map_append] at hn
  exact (List.nodup_append.1 hn).2.2 k (hasKey_iff_mem_map.1 h1) k (hasKey_iff_mem_map.1 h2) rfl

/-! ## Batch -/

section
variable {C : Block K V} {I : C.State → Prop} {ec : C.State → List (K × V)}

/-- **C16 (histories).** A `Batch` of any number of containers obeying the contract: no panic,
capacity and size are the sums, nothing lost or invented. -/
theorem C16_batch_history (hC : Lawful C I ec fun _ => True) (s : List C.State) (hs : ∀ c ∈ s, I c)
    (ops : List (Op K V)) :
    ∃ out s', (batch C).run s ops = .ok (out, s') ∧
      (batch C).capacity s' = (s.map C.capacity).sum ∧
      (batch C).size s' = (List.map C.size s').sum ∧
      (batch C).size s' ≤ (s.map C.capacity).sum ∧
      (List.flatMap ec s' ++ out).Perm (s.flatMap ec ++ ops.flatMap Op.given) := by
  obtain ⟨out, s', h1, h2, h3, h4, h5⟩ := (batch_lawful hC).run ops (fun op _ => okTrue op) s hs
  exact ⟨out, s', h1, h4, rfl, h3.trans h4.le, h5⟩

/-- **C16 (each call).** -/
theorem C16_batch_contract (hC : Lawful C I ec fun _ => True) :
    Lawful (batch C) (fun s => ∀ c ∈ (show List C.State from s), I c)
      (fun s => List.flatMap ec s) fun _ => True :=
  batch_lawful hC

/-- **C16 (flush).** -/
theorem C16_batch_flush (fC : Flushes C I ec) (s : List C.State) (hs : ∀ c ∈ s, I c) :
    ∃ out s', (batch C).flush s = .ok (out, s') ∧ List.flatMap ec s' = [] ∧ out.Perm (s.flatMap ec) :=
  batch_flushes fC s hs

/-- `pop(n)` is called on each of `cs` in turn with what is still missing, until enough is freed: all
those visited but the last are emptied; the containers become `cs'` and `out` is evicted. -/
inductive EvictedFrom (C : Block K V) (ec : C.State → List (K × V)) :
    List C.State → Nat → List C.State → List (K × V) → Prop
  | none (n) : EvictedFrom C ec [] n [] []
  | enough {c cs n o c'} (hp : C.pop c n = .ok (o, c')) (h : n ≤ C.size c - C.size c') :
      EvictedFrom C ec (c :: cs) n (c' :: cs) o
  | next {c cs n o c' cs' out} (hp : C.pop c n = .ok (o, c')) (h : C.size c - C.size c' < n)
      (he : ec c' = []) (hn : EvictedFrom C ec cs (n - (C.size c - C.size c')) cs' out) :
      EvictedFrom C ec (c :: cs) n (c' :: cs') (o ++ out)

/-- **C65.** `pop(n)` on a `Batch` evicts from the last batch first, then from the one before, each time
what is still missing, and stops as soon as enough is freed. -/
theorem C65_batch_pop_last_first (hC : Lawful C I ec fun _ => True) (s : List C.State)
    (hs : ∀ c ∈ s, I c) (n : Nat) :
    ∃ out s', (batch C).pop s n = .ok (out, s') ∧
      EvictedFrom C ec s.reverse n (List.reverse s') out := by
  have key : ∀ (s : List C.State) (n : Nat), (∀ c ∈ s, I c) →
      ∃ out s', Batch.popLoop C s n = .ok (out, s') ∧ EvictedFrom C ec s n s' out := by
    intro s
    induction s with
    | nil => intro n _; exact ⟨[], [], rfl, .none n⟩
    | cons c cs ih =>
      intro n hs
      obtain ⟨o, c', h1, h2, h3, h4, h5⟩ := hC.pop c n (hs c (by simp))
      have hle : C.size c' ≤ C.size c := by
        rcases h5 with h5 | h5
        · omega
        · rw [hC.empty_size c' h2 h5]; omega
      by_cases hn : C.size c - C.size c' ≥ n
      · exact ⟨o, c' :: cs, by simp [Batch.popLoop, h1, Res.sub_ok hle, hn], .enough h1 hn⟩
      · obtain ⟨os, cs', g1, g2⟩ := ih (n - (C.size c - C.size c')) (fun x hx => hs x (by simp [hx]))
        have he : ec c' = [] := by
          rcases h5 with h5 | h5
          · omega
          · exact h5
        exact ⟨o ++ os, c' :: cs', by simp [Batch.popLoop, h1, Res.sub_ok hle, hn, g1],
          .next h1 (by omega) he g2⟩
  obtain ⟨out, r, h1, h2⟩ := key s.reverse n (fun c hc => hs c (List.mem_reverse.1 hc))
  exact ⟨out, r.reverse, by simp [batch, Batch.pop, h1], by rwa [List.reverse_reverse]⟩

/-- **C65 (order).** If `pop` changed a batch then it emptied every batch after it. -/
theorem C65_batch_pop_order (hC : Lawful C I ec fun _ => True) (s : List C.State)
    (hs : ∀ c ∈ s, I c) (n : Nat) :
    ∃ (out : List (K × V)) (s' : List C.State), (batch C).pop s n = .ok (out, s') ∧
      s'.length = s.length ∧
      ∀ before c after before' c' after', s = before ++ c :: after → s' = before' ++ c' :: after' →
        before.length = before'.length → c ≠ c' → ∀ x ∈ after', ec x = [] := by
  obtain ⟨out, (s' : List C.State), h1, h2⟩ := C65_batch_pop_last_first hC s hs n
  have hlen : ∀ {r n r' out}, EvictedFrom C ec r n r' out → r.length = r'.length := by
    intro r n r' out h
    induction h with
    | none => rfl
    | enough => rfl
    | next _ _ _ _ ih => simp [ih]
  have key : ∀ {r n r' out}, EvictedFrom C ec r n r' out → ∀ b c a b' c' a', r = b ++ c :: a →
      r' = b' ++ c' :: a' → b.length = b'.length → c ≠ c' → ∀ x ∈ b', ec x = [] := by
    intro r n r' out h
    induction h with
    | none => intro b c a b' c' a' h; simp at h
    | @enough d cs n o d' hp hge =>
      intro b c a b' c' a' e1 e2 e3 hne
      cases b with
      | nil => cases b' with
        | nil => simp
        | cons => simp at e3
      | cons y b => cases b' with
        | nil => simp at e3
        | cons y' b' =>
          simp only [List.cons_append, List.cons.injEq] at e1 e2
          have := e1.2.symm.trans e2.2
          rw [List.append_eq_append_iff_of_size_eq_left (by simpa using e3)] at this
          exact absurd (List.cons.inj this.2).1 hne
    | @next d cs n o d' cs' out hp hlt he hn ih =>
      intro b c a b' c' a' e1 e2 e3 hne x hx
      cases b with
      | nil => cases b' with
        | nil => simp at hx
        | cons => simp at e3
      | cons y b => cases b' with
        | nil => simp at e3
        | cons y' b' =>
          simp only [List.cons_append, List.cons.injEq] at e1 e2
          rcases List.mem_cons.1 hx with rfl | hx
          · rw [← e2.1]; exact he
          · exact ih b c a b' c' a' e1.2 e2.2 (by simpa using e3) hne x hx
  refine ⟨out, s', h1, by simpa using (hlen h2).symm, ?_⟩
  intro b c a b' c' a' hs0 hs' e3 hne x hx
  subst hs0 hs'
  have hl : (b ++ c :: a).length = (b' ++ c' :: a').length := by
    have := hlen h2; rwa [List.length_reverse, List.length_reverse] at this
  exact key h2 a.reverse c b.reverse a'.reverse c' b'.reverse (by simp) (by simp)
    (by simp only [List.length_append, List.length_cons] at hl; simp; omega) hne x (by simpa using hx)

/-- Non-vacuity of C65: `pop(3)` empties the last batch, takes one element of the middle one and leaves
the first. -/
example : (batch (arrayBlock (fun _ => 1) natSorter natSorter)).pop
      [{ capacity := 2, totalSize := 1, values := [(9, 90)] },
       { capacity := 2, totalSize := 2, values := [(1, 10), (2, 20)] },
       { capacity := 2, totalSize := 2, values := [(3, 30), (4, 40)] }] 3 =
    .ok ([(3, 30), (4, 40), (2, 20)],
      [{ capacity := 2, totalSize := 1, values := [(9, 90)] },
       { capacity := 2, totalSize := 1, values := [(1, 10)] },
       { capacity := 2, totalSize := 0, values := [] }]) := rfl

/-- `l` is offered to each of `cs` in turn, each receiving what the one before handed back, until
nothing is left: the batches become `cs'` and `out` is left in the end. -/
inductive OfferedTo (C : Block K V) : List C.State → List (K × V) → List C.State → List (K × V) → Prop
  | done (l) : OfferedTo C [] l [] l
  | next {c cs l o c' cs' out} (hne : l ≠ []) (hp : C.push c l = .ok (o, c'))
      (h : OfferedTo C cs o cs' out) : OfferedTo C (c :: cs) l (c' :: cs') out

/-- **C17.** `push` offers the elements to the batches in order, each at most once, and stops when
nothing is left; what is returned was refused by the last batch visited, and everything is returned
only after all batches were visited.  The batches visited go to the end; none is lost. -/
theorem C17_batch_push (s : List C.State) (l out : List (K × V)) (s' : List C.State)
    (h : (batch C).push s l = .ok (out, s')) :
    ∃ visited rest visited', s = visited ++ rest ∧ s' = rest ++ visited' ∧
      visited'.length = visited.length ∧
      OfferedTo C visited l visited' out ∧ (out = [] ∨ rest = []) := by
  have key : ∀ (s : List C.State) l out rest used, Batch.pushLoop C s l = .ok (out, rest, used) →
      ∃ visited, s = visited ++ rest ∧ used.length = visited.length ∧
        OfferedTo C visited l used out ∧ (out = [] ∨ rest = []) := by
    intro s
    induction s with
    | nil =>
      intro l out rest used h
      cases l with
      | nil =>
        simp only [Batch.pushLoop, Res.ok.injEq, Prod.mk.injEq] at h
        obtain ⟨rfl, rfl, rfl⟩ := h
        exact ⟨[], rfl, rfl, .done [], Or.inl rfl⟩
      | cons v vs =>
        simp only [Batch.pushLoop, Res.ok.injEq, Prod.mk.injEq] at h
        obtain ⟨rfl, rfl, rfl⟩ := h
        exact ⟨[], rfl, rfl, .done _, Or.inr rfl⟩
    | cons c cs ih =>
      intro l out rest used h
      cases l with
      | nil =>
        simp only [Batch.pushLoop, Res.ok.injEq, Prod.mk.injEq] at h
        obtain ⟨rfl, rfl, rfl⟩ := h
        exact ⟨[], rfl, rfl, .done _, Or.inl rfl⟩
      | cons v vs =>
        simp only [Batch.pushLoop] at h
        cases h1 : C.push c (v :: vs) with
        | panic => simp [h1] at h
        | ok r =>
          obtain ⟨o, c'⟩ := r
          simp only [h1, Res.ok_bind] at h
          cases h2 : Batch.pushLoop C cs o with
          | panic => simp [h2] at h
          | ok r =>
            obtain ⟨o2, rest2, used2⟩ := r
            simp only [h2, Res.ok_bind, Res.pure_eq, Res.ok.injEq, Prod.mk.injEq] at h
            obtain ⟨rfl, rfl, rfl⟩ := h
            obtain ⟨vis, e1, e2, e3, e4⟩ := ih _ _ _ _ h2
            exact ⟨c :: vis, by simp [e1], by simp [e2], .next (by simp) h1 e3, e4⟩
  simp only [batch, Batch.push] at h
  cases h1 : Batch.pushLoop C s l with
  | panic => simp [h1] at h
  | ok r =>
    obtain ⟨o, rest, used⟩ := r
    simp only [h1, Res.ok_bind, Res.pure_eq, Res.ok.injEq, Prod.mk.injEq] at h
    obtain ⟨rfl, rfl⟩ := h
    obtain ⟨vis, e1, e2, e3, e4⟩ := key _ _ _ _ _ h1
    exact ⟨vis, rest, used, e1, rfl, e2, e3, e4⟩

/-! ## FlushStopper -/

/-- Calls other than `flush`. -/
def notFlush : Op K V → Bool
  | .flush => false
  | _ => true

/-- **C18 (each call).** -/
theorem C18_flushStopper_call (s : C.State) (op : Op K V) :
    (flushStopper C).observe s op =
      if notFlush op then C.observe s op else .ok (.many [], s) := by
  cases op <;> rfl

/-- **C18 (histories).** Any history on a `FlushStopper` gives the caller and leaves the wrapped
container what the same history without the `flush` calls gives and leaves; each `flush` returns
nothing. -/
theorem C18_flushStopper_history (ops : List (Op K V)) (s : C.State) :
    (flushStopper C).run s ops = C.run s (ops.filter notFlush) := by
  induction ops generalizing s with
  | nil => rfl
  | cons op ops ih =>
    cases op with
    | flush =>
      simp only [notFlush, List.filter_cons, Bool.false_eq_true, if_false, Block.run, Block.step,
        flushStopper, Res.ok_bind, List.nil_append]
      have := ih s
      simp only [flushStopper] at this
      rw [this]
      cases C.run s (List.filter notFlush ops) <;> rfl
    | _ =>
      simp only [notFlush, List.filter_cons, if_true, Block.run]
      refine congrArg (Res.bind _) (funext fun r => ?_)
      exact congrArg (fun x => Res.bind x _) (ih r.2)

/-- **C18 (contract).** -/
theorem C18_flushStopper_contract {Pre} (hC : Lawful C I ec Pre) : Lawful (flushStopper C) I ec Pre :=
  flushStopper_lawful hC

/-! ## Profiler -/

/-- **C36 (soundness, any container).** Whenever a call on a `Profiler` returns, the wrapped container
returned the same thing and is left in the same state. -/
theorem C36_profiler_sound (s : C.State) (st : Stats) (op : Op K V) (r : Obs K V)
    (s' : C.State × Stats) (h : (profiler C).observe (s, st) op = .ok (r, s')) :
    C.observe s op = .ok (r, s'.1) := by
  cases op with
  | contains k =>
    simp only [Block.observe, profiler] at h ⊢
    cases h1 : C.contains s k with
    | panic => simp [h1] at h
    | ok x => simp only [h1, Res.ok_bind, Res.pure_eq, Res.ok.injEq] at h ⊢; cases h; rfl
  | take k =>
    simp only [Block.observe, profiler] at h ⊢
    cases h1 : C.take s k with
    | panic => simp [h1] at h
    | ok x => simp only [h1, Res.ok_bind, Res.pure_eq, Res.ok.injEq] at h ⊢; cases h; rfl
  | takeMultiple ks =>
    simp only [Block.observe] at h ⊢
    cases h2 : (profiler C).takeMultiple (s, st) ks with
    | panic => simp [h2] at h
    | ok x =>
      obtain ⟨o, k', s2⟩ := x
      simp only [h2, Res.ok_bind, Res.pure_eq, Res.ok.injEq] at h
      cases h
      have h3 := (profiler_takeMultiple_ok h2).1
      simp only at h3
      simp [h3]
  | pop n =>
    simp only [Block.observe, profiler] at h ⊢
    cases h1 : C.pop s n with
    | panic => simp [h1] at h
    | ok x =>
      simp only [h1, Res.ok_bind] at h ⊢
      cases h2 : Res.sub (C.size s) (C.size x.2) with
      | panic => simp [h2] at h
      | ok d => simp only [h2, Res.ok_bind, Res.pure_eq, Res.ok.injEq] at h ⊢; cases h; rfl
  | push l =>
    simp only [Block.observe, profiler] at h ⊢
    cases h1 : C.push s l with
    | panic => simp [h1] at h
    | ok x => simp only [h1, Res.ok_bind, Res.pure_eq, Res.ok.injEq] at h ⊢; cases h; rfl
  | flush =>
    simp only [Block.observe, profiler] at h ⊢
    cases h1 : C.flush s with
    | panic => simp [h1] at h
    | ok x => simp only [h1, Res.ok_bind, Res.pure_eq, Res.ok.injEq] at h ⊢; cases h; rfl

/-- One call on a `Profiler` over a container obeying the contract whose `take_multiple` returns at
most one element per requested key. -/
theorem profiler_observe {Pre} (hC : Lawful C I ec Pre) (fC : Fair C I) (s : C.State) (hs : I s)
    (st : Stats) (op : Op K V) (hop : op.Ok Pre) :
    ∃ r s' st', (profiler C).observe (s, st) op = .ok (r, (s', st')) ∧ I s' ∧
      C.observe s op = .ok (r, s') := by
  have hstep := (profiler_lawful hC fC).step (s, st) hs op hop
  obtain ⟨out, x, h1, h2, -⟩ := hstep
  have h1 := (Block.step_eq_observe (profiler C) (s, st) op).symm.trans h1
  cases h3 : (profiler C).observe (s, st) op with
  | panic => simp [h3] at h1
  | ok y =>
    obtain ⟨r, s', st'⟩ := y
    simp only [h3, Res.ok_bind, Res.pure_eq, Res.ok.injEq] at h1
    obtain ⟨-, rfl⟩ := h1
    exact ⟨r, s', st', rfl, h2, C36_profiler_sound s st op r (s', st') h3⟩

/-- **C36 (histories).** Over a container obeying the contract whose `take_multiple` returns at most
one element per requested key, any history on a `Profiler` returns, call by call, exactly what the
wrapped container returns, and leaves it in the same state; in particular it never panics. -/
theorem C36_profiler_transparent {Pre} (hC : Lawful C I ec Pre) (fC : Fair C I)
    (ops : List (Op K V)) (hops : ∀ op ∈ ops, op.Ok Pre) :
    ∀ (s : C.State) (_ : I s) (st : Stats),
    ∃ rs s' st', (profiler C).observes (s, st) ops = .ok (rs, (s', st')) ∧
      C.observes s ops = .ok (rs, s') := by
  induction ops with
  | nil => intro s _ st; exact ⟨[], s, st, rfl, rfl⟩
  | cons op ops ih =>
    intro s hs st
    obtain ⟨r, s1, st1, h1, h2, h3⟩ := profiler_observe hC fC s hs st op (hops op (by simp))
    obtain ⟨rs, s2, st2, g1, g2⟩ := ih (fun o ho => hops o (by simp [ho])) s1 h2 st1
    exact ⟨r :: rs, s2, st2, by simp [Block.observes, h1, g1], by simp [Block.observes, h3, g2]⟩

end

/-- **C52, full statement**: a `Profiler` never panics in a call that the wrapped container, obeying the
contract, completes. -/
def C52_full : Prop :=
  ∀ (C : Block Nat Nat) (I : C.State → Prop) (ec : C.State → List (Nat × Nat)),
    Lawful C I ec (fun _ => True) → ∀ s st op r s', I s → C.observe s op = .ok (r, s') →
      (profiler C).observe (s, st) op ≠ .panic

/-- It is false: over a `Batch` of two dynamic containers each holding key 1, `take_multiple([1])`
returns two elements and the count of misses `1 - 2` underflows. -/
theorem C52_false : ¬ C52_full := by
  intro h
  let A := arrayBlock (K := Nat) (V := Nat) (fun _ => 1) natSorter natSorter
  have hL := batch_lawful (viaDefault_lawful (Array.lawful (K := Nat) (V := Nat) (fun _ => 1) natSorter natSorter))
  let a : Array Nat Nat := { capacity := 1, totalSize := 1, values := [(1, 10)] }
  let b : Array Nat Nat := { capacity := 1, totalSize := 1, values := [(1, 20)] }
  refine h _ _ _ hL ([a, b] : List (Array Nat Nat)) {} (.takeMultiple [1]) (.keyed [(1, 10), (1, 20)] [1])
    ([{ capacity := 1, totalSize := 0, values := [] }, { capacity := 1, totalSize := 0, values := [] }] :
      List (Array Nat Nat)) ?_ rfl rfl
  intro c hc
  rcases List.mem_cons.1 hc with rfl | hc
  · exact ⟨rfl, by decide⟩
  · rcases List.mem_cons.1 hc with rfl | hc
    · exact ⟨rfl, by decide⟩
    · exact absurd hc List.not_mem_nil

/-- **C52, what holds**: it never panics if `take_multiple` returns at most one element per requested
key, in particular over every stack that is not a `Batch` of dynamic containers (see
`Stack.core_all`). -/
theorem C52_partial {C : Block K V} {I : C.State → Prop} {ec Pre} (hC : Lawful C I ec Pre)
    (fC : Fair C I) (s : C.State) (hs : I s) (st : Stats) (op : Op K V) (hop : op.Ok Pre) :
    (profiler C).observe (s, st) op ≠ .panic := by
  obtain ⟨r, s', st', h, -⟩ := profiler_observe hC fC s hs st op hop
  rw [h]; simp

/-! ## Decorator -/

/-- **C38 (contract).** Over any container obeying the contract, a `Decorator` whose decoration gives
back the value it wraps obeys the contract for the undecorated elements. -/
theorem C38_decorator_contract (D : Decoration V) (hD : ∀ f v, D.unwrap (D.wrap f v).1 = v)
    {C : Block K D.Item} {I : C.State → Prop} {ec : C.State → List (K × D.Item)}
    (hC : Lawful C I ec fun _ => True) :
    Lawful (decorator D C) (fun s => I s.1) (fun s => (ec s.1).map fun e => (e.1, D.unwrap e.2))
      fun _ => True :=
  (decorator_lawful D hD hC).mono fun _ _ _ => trivial

/-- **C38 (histories).** What is pushed is what comes out, whatever the decoration. -/
theorem C38_decorator_history (D : Decoration V) (hD : ∀ f v, D.unwrap (D.wrap f v).1 = v)
    {C : Block K D.Item} {I : C.State → Prop} {ec : C.State → List (K × D.Item)}
    (hC : Lawful C I ec fun _ => True) (c : C.State) (fac : D.Factory) (hs : I c)
    (ops : List (Op K V)) :
    ∃ out s', (decorator D C).run (c, fac) ops = .ok (out, s') ∧
      (decorator D C).capacity s' = C.capacity c ∧ C.size s'.1 ≤ C.capacity c ∧
      ((ec s'.1).map (fun e => (e.1, D.unwrap e.2)) ++ out).Perm
        ((ec c).map (fun e => (e.1, D.unwrap e.2)) ++ ops.flatMap Op.given) := by
  obtain ⟨out, s', h1, h2, h3, h4, h5⟩ := (C38_decorator_contract D hD hC).run ops
    (fun op _ => okTrue op) (c, fac) hs
  exact ⟨out, s', h1, h4, h3.trans h4.le, h5⟩

/-! ## Non-vacuity: an `Exclusive` of a `Profiler` over an `Array` and a `Batch` of decorated `Array`s -/

/-- A decoration adding a serial number. -/
def serial : Decoration Nat where
  Factory := Nat
  Item := Nat × Nat
  wrap n v := ((v, n), n + 1)
  unwrap i := i.1

/-- Any permutation is a sorting routine for the contract. -/
def idSorter {E : Type} : Sorter E := ⟨id, fun _ => List.Perm.refl _⟩

example :=
  C11_exclusive_history
    (profiler_lawful (Array.lawful (K := Nat) (fun _ => 1) natSorter natSorter)
      (Array.strict _ natSorter natSorter).fair)
    (C16_batch_contract (C38_decorator_contract serial (fun _ _ => rfl)
      (Array.lawful (K := Nat) (V := Nat × Nat) (fun e => e.2.1) idSorter idSorter)))
    ((Array.new 2, {}), [(Array.new 3, (0 : Nat)), (Array.new 5, (7 : Nat))])
    (Array.new_inv _ 2)
    (by
      intro c hc
      rcases List.mem_cons.1 hc with rfl | hc
      · exact Array.new_inv _ 3
      · rcases List.mem_cons.1 hc with rfl | hc
        · exact Array.new_inv _ 5
        · simp at hc)
    [.push [(1, 10), (2, 2), (3, 1)], .takeMultiple [1, 3], .pop 1, .flush]

end CombProps
end Byoc
