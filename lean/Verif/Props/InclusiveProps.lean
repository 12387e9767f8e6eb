import Verif.Proofs.InclusiveWeak

/-!
# C14, C15: `Inclusive`

`elems`/contents below are what the *user* stored: one value per element, the latest one written.
`Inclusive.vis fr bk` reads it off the cells of the two levels: the elements of the back, each with
the value of its copy in front if there is one.
-/

namespace Byoc
namespace InclusiveProps

open Inclusive

variable {K V : Type}

/-! ## Without accesses through cells -/

/-- The elements of the back, unwrapped. -/
def plain (l : List (K × InclCell V)) : List (K × V) := l.map unwrap

theorem hasKey_plain {l : List (K × InclCell V)} {k : K} : HasKey (plain l) k ↔ HasKey l k := by
  rw [hasKey_iff_mem_map, hasKey_iff_mem_map]
  simp [plain, unwrap, Function.comp_def]

theorem clonedKeys_nil_of {l : List (K × InclCell V)} (h : ∀ e ∈ l, e.2.cloned = false) :
    clonedKeys l = [] := by
  unfold clonedKeys
  rw [List.filterMap_eq_nil_iff]
  intro e he
  simp [h e he]

theorem filter_of {l : List (K × InclCell V)} (h : ∀ e ∈ l, e.2.cloned = false) :
    l.filter (fun e => !e.2.cloned) = l := by
  rw [List.filter_eq_self]
  intro e he
  simp [h e he]

theorem popLoop_plain (F : Block K (InclCell V)) (f : F.State) : ∀ (l : List (K × InclCell V)),
    (∀ e ∈ l, e.2.cloned = false) → popLoop F f l = .ok (plain l, f) := by
  intro l
  induction l with
  | nil => intro _; rfl
  | cons e l ih =>
    intro h
    simp only [popLoop, h e (by simp), ih (fun x hx => h x (by simp [hx])), Res.ok_bind]
    rfl

/-- **C14, part**: as long as nothing is accessed through `get`/`get_mut`, an `Inclusive` of any two
counting containers (keys may repeat) obeys the container contract; nothing is ever put in front. -/
theorem C14_partial_no_access {F B : Block K (InclCell V)} {If : F.State → Prop} {Ib : B.State → Prop}
    {ef : F.State → List (K × InclCell V)} {eb : B.State → List (K × InclCell V)}
    (hF : Lawful F If ef fun _ => True) (hB : Lawful B Ib eb fun _ => True) (sB : Slots B Ib eb) :
    Lawful (inclusive F B)
      (fun s => If s.1 ∧ Ib s.2 ∧ ef s.1 = [] ∧ ∀ e ∈ eb s.2, e.2.cloned = false)
      (fun s => (eb s.2).map fun e => (e.1, e.2.value)) (fun _ => True) where
  bounded s hs := hB.bounded s.2 hs.2.1
  empty_size s hs he := hB.empty_size s.2 hs.2.1 (by simpa using he)
  contains s k hs := by
    obtain ⟨i1, i2, i3, i4⟩ := hs
    obtain ⟨b, f1, h1, h2, h3, h3', h4, h5⟩ := hF.contains s.1 k i1
    have hb : ¬ b = true := by
      intro hb
      have := h5.1 hb
      rw [i3] at this
      simp [HasKey] at this
    obtain ⟨b', b1, g1, g2, g3, g3', g4, g5⟩ := hB.contains s.2 k i2
    refine ⟨b', (f1, b1), ?_, ⟨h2, g2, h4.trans i3, by rw [g4]; exact i4⟩, g3, g3', by simp only [g4], ?_⟩
    · simp only [inclusive, h1, Res.ok_bind, hb, g1]; rfl
    · rw [g5]; exact hasKey_plain.symm
  take s k hs := by
    obtain ⟨i1, i2, i3, i4⟩ := hs
    obtain ⟨o, b1, h1, h2, h3, h4⟩ := hB.take s.2 k i2
    cases o with
    | none =>
      refine ⟨none, (s.1, b1), by simp only [inclusive, h1, Res.ok_bind]; rfl,
        ⟨i1, h2, i3, fun e he => i4 e (h4.2.subset he)⟩, h3, ?_, h4.2.map _⟩
      have := h4.1
      rw [← hasKey_plain] at this
      exact this
    | some e =>
      obtain ⟨hk, hp⟩ := h4
      have hc : e.2.cloned = false := i4 e (hp.subset (by simp))
      refine ⟨some (unwrap e), (s.1, b1), ?_,
        ⟨i1, h2, i3, fun e he => i4 e (hp.subset (by simp [he]))⟩, h3, hk, ?_⟩
      · simp only [inclusive, h1, Res.ok_bind, hc]; rfl
      · exact hp.map unwrap
  takeMultiple s ks hs := by
    obtain ⟨i1, i2, i3, i4⟩ := hs
    obtain ⟨out, ks', b1, h1, h2, h3, h4, h5, h6, h7, h8⟩ := hB.takeMultiple s.2 ks i2
    have ho : ∀ e ∈ out, e.2.cloned = false := fun e he => i4 e (h4.subset (by simp [he]))
    obtain ⟨fo, fk, f1, g1, g2, g3, g4, g5, -⟩ := hF.takeMultiple s.1 [] i1
    rw [i3] at g4
    have g4' := List.perm_nil.1 g4
    simp only [List.append_eq_nil_iff] at g4'
    refine ⟨plain out, ks', (f1, b1), ?_, ⟨g2, h2, g4'.1, fun e he => i4 e (h4.subset (by simp [he]))⟩,
      h3, ?_, ?_, ?_, h7, ?_⟩
    · simp only [inclusive, h1, Res.ok_bind, clonedKeys_nil_of ho, g1, filter_of ho, g4'.2, List.append_nil]
      rfl
    · have := h4.map unwrap
      rw [List.map_append] at this
      exact this
    · intro e he
      obtain ⟨x, hx, rfl⟩ := List.mem_map.1 he
      exact h5 x hx
    · intro k hk hh
      rw [hasKey_plain]
      exact h6 k hk (hasKey_plain.1 hh)
    · intro k hk hh
      exact h8 k hk (fun h => hh (hasKey_plain.2 h))
  push s l hs _ := by
    obtain ⟨i1, i2, i3, i4⟩ := hs
    obtain ⟨out, b1, h1, h2, h3, h4⟩ := hB.push s.2 (l.map wrap) i2 trivial
    have hall : ∀ e ∈ eb s.2 ++ l.map wrap, e.2.cloned = false := by
      intro e he
      rcases List.mem_append.1 he with he | he
      · exact i4 e he
      · obtain ⟨x, -, rfl⟩ := List.mem_map.1 he
        rfl
    have ho : ∀ e ∈ out, e.2.cloned = false := fun e he => hall e (h4.subset (by simp [he]))
    obtain ⟨fo, fk, f1, g1, g2, g3, g4, g5, -⟩ := hF.takeMultiple s.1 [] i1
    rw [i3] at g4
    have g4' := List.perm_nil.1 g4
    simp only [List.append_eq_nil_iff] at g4'
    refine ⟨plain out, (f1, b1), ?_, ⟨g2, h2, g4'.1, fun e he => hall e (h4.subset (by simp [he]))⟩,
      h3, ?_⟩
    · simp only [inclusive, h1, Res.ok_bind, clonedKeys_nil_of ho, g1, filter_of ho, g4'.2,
        List.map_nil, List.append_nil]
      rfl
    · have := h4.map unwrap
      rw [List.map_append, List.map_append, List.map_map] at this
      have hid : l.map (unwrap ∘ wrap) = l := by
        conv => rhs; rw [← List.map_id l]
        apply List.map_congr_left
        intro e _; rfl
      rw [hid] at this
      exact this
  flush s hs := by
    obtain ⟨i1, i2, i3, i4⟩ := hs
    obtain ⟨fo, f1, h1, h2, h3, h4⟩ := hF.flush s.1 i1
    rw [i3] at h4
    have h4' := List.perm_nil.1 h4
    simp only [List.append_eq_nil_iff] at h4'
    obtain ⟨bo, ks', b1, g1, g2, g3, g4, g5, -⟩ := hB.takeMultiple s.2 [] i2
    have hbo : bo = [] := by
      cases bo with
      | nil => rfl
      | cons e _ => exact absurd (g5 e (by simp)) (by simp)
    obtain ⟨r, b2, u1, u2, u3, u4⟩ := hB.push b1 [] g2 trivial
    have hr : r.length = 0 := by
      have e1 := sB.pushExact b1 [] r b2 g2 u1
      have e2 := hB.bounded b1 g2
      simp only [List.length_nil, Nat.add_zero] at e1
      omega
    have hr' : r = [] := List.eq_nil_of_length_eq_zero hr
    subst hr' hbo
    simp only [List.append_nil] at u4 g4
    obtain ⟨out, b3, w1, w2, w3, w4⟩ := hB.flush b2 u2
    have hp := w4.trans (u4.trans g4)
    refine ⟨plain out, (f1, b3), ?_, ⟨h2, w2, h4'.1, fun e he => i4 e (hp.subset (by simp [he]))⟩,
      w3.trans (u3.trans g3), ?_⟩
    · simp only [inclusive, h1, Res.ok_bind, h4'.2, List.filterMap_nil, List.map_nil, g1, u1,
        List.length_nil, if_true, w1]
      rfl
    · have := hp.map unwrap
      rw [List.map_append] at this
      exact this
  pop s n hs := by
    obtain ⟨i1, i2, i3, i4⟩ := hs
    obtain ⟨out, b1, h1, h2, h3, h4, h5⟩ := hB.pop s.2 n i2
    have ho : ∀ e ∈ out, e.2.cloned = false := fun e he => i4 e (h4.subset (by simp [he]))
    refine ⟨plain out, (s.1, b1), ?_, ⟨i1, h2, i3, fun e he => i4 e (h4.subset (by simp [he]))⟩, h3, ?_, ?_⟩
    · simp only [inclusive, h1, Res.ok_bind, popLoop_plain F s.1 out ho]; rfl
    · have := h4.map unwrap
      rw [List.map_append] at this
      exact this
    · rcases h5 with h5 | h5
      · exact Or.inl h5
      · right; simp [h5]

/-! ## Concrete two-level containers -/

/-- Sorting cells by value. -/
def cellSorter : Sorter (Nat × InclCell Nat) := Sorter.ofLe (fun a b => a.2.value ≤ b.2.value)

/-- An `Array` of cells, counting elements. -/
abbrev cellArray : Block Nat (InclCell Nat) := arrayBlock (fun _ => 1) cellSorter cellSorter

/-- Its `get` and `get_mut`. -/
abbrev cellGet : GetOps cellArray := arrayGet (fun _ => 1) cellSorter cellSorter

/-- `Inclusive<Array, Array>`. -/
abbrev twoArrays : Block Nat Nat := inclusive cellArray cellArray

/-- Its `get` and `get_mut`. -/
abbrev twoGets : GetOps twoArrays := inclusiveGet cellGet cellGet

/-- C14, the full statement, for `Inclusive<Array, Array>`: any history of calls and accesses (which
never pushes a key already stored) returns, and each key pushed is handed back exactly once if the
history ends with a flush. -/
def C14_full : Prop :=
  ∀ (n m : Nat) (cs : List (Call Nat Nat)), n ≤ m →
    twoArrays.FreshCalls twoGets (fun s => vis s.1.values s.2.values) (Array.new n, Array.new m) cs →
    (∀ c ∈ cs, c.Within (· = id) (fun _ => True)) →
    ∃ out s, twoArrays.calls twoGets (Array.new n, Array.new m) (cs ++ [.op .flush]) = .ok (out, s) ∧
      (out.map Prod.fst).Perm ((cs.flatMap Call.given).map Prod.fst)

/-- Two elements, each read once, with a front of one slot. -/
def evicting : List (Call Nat Nat) :=
  [.op (.push [(1, 10), (2, 20)]), .get 1 id, .get 2 id]

theorem evicting_state : twoArrays.calls twoGets (Array.new 1, Array.new 2) evicting =
    .ok ([], ({ capacity := 1, totalSize := 1, values := [(2, ⟨20, false, true⟩)] },
      { capacity := 2, totalSize := 2, values := [(1, ⟨10, false, true⟩), (2, ⟨20, false, true⟩)] })) := rfl

theorem C14_panics_take : twoArrays.calls twoGets (Array.new 1, Array.new 2)
    (evicting ++ [.op (.take 1)]) = .panic := rfl

theorem C14_panics_pop : twoArrays.calls twoGets (Array.new 1, Array.new 2)
    (evicting ++ [.op (.pop 2)]) = .panic := rfl

/-- `take_multiple([1])` returns nothing, and the element is gone. -/
theorem C14_loses : ∃ s, twoArrays.calls twoGets (Array.new 1, Array.new 2)
    (evicting ++ [.op (.takeMultiple [1]), .op .flush]) = .ok ([(2, 20)], s) := ⟨_, rfl⟩

theorem freshCalls_of_nopush {B : Block K V} {G : GetOps B} {elems : B.State → List (K × V)} :
    ∀ (cs : List (Call K V)) (s : B.State), (∀ c ∈ cs, c.given = []) → B.FreshCalls G elems s cs := by
  intro cs
  induction cs with
  | nil => intro s _; trivial
  | cons c cs ih =>
    intro s h
    refine ⟨fun hn => by rw [h c (by simp), List.append_nil]; exact hn,
      fun out s' _ => ih s' (fun c hc => h c (by simp [hc]))⟩

theorem evicting_fresh (tail : List (Call Nat Nat)) (ht : ∀ c ∈ tail, c.given = []) (n m : Nat) :
    twoArrays.FreshCalls twoGets (fun s => vis s.1.values s.2.values) (Array.new n, Array.new m)
      (evicting ++ tail) := by
  refine ⟨fun _ => by simp [Array.new, vis, Call.given, Op.given], fun out s' _ => ?_⟩
  apply freshCalls_of_nopush
  intro c hc
  rcases List.mem_cons.1 hc with rfl | hc
  · rfl
  · rcases List.mem_cons.1 hc with rfl | hc
    · rfl
    · exact ht c hc

/-- The full statement is false of the code. -/
theorem C14_false : ¬ C14_full := by
  intro h
  obtain ⟨out, s, h1, -⟩ := h 1 2 (evicting ++ [.op (.take 1)]) (by decide)
    (evicting_fresh _ (by simp [Call.given, Op.given]) 1 2)
    (by
      intro c hc
      simp only [evicting, List.cons_append, List.nil_append, List.mem_cons, List.not_mem_nil,
        or_false] at hc
      rcases hc with rfl | rfl | rfl | rfl <;> trivial)
  have hp : twoArrays.calls twoGets (Array.new 1, Array.new 2)
      ((evicting ++ [.op (.take 1)]) ++ [.op .flush]) = .panic := rfl
  rw [hp] at h1
  cases h1

section
variable [LinearOrder K] {F B : Block K (InclCell V)} {GF : GetOps F} {GB : GetOps B}
  {If : F.State → Prop} {Ib : B.State → Prop}
  {ef : F.State → List (K × InclCell V)} {eb : B.State → List (K × InclCell V)}

/-- **C14, what holds.**  If the front is as large as the back (so that it never has to evict), any
history of calls and accesses which never pushes a key already stored returns; the size stays within
the capacity; the keys pushed are those stored and those handed back, each once; and each element not
written to comes back, or stays, with the same value.  For any two counting containers whose `flush`
empties them. -/
theorem C14_partial
    (hF : Lawful F If ef fun _ => True) (gF : GetLawful F GF If ef fun _ => True)
    (sF : Slots F If ef) (fF : Flushes F If ef)
    (hB : Lawful B Ib eb fun _ => True) (gB : GetLawful B GB Ib eb fun _ => True)
    (sB : Slots B Ib eb) (fB : Flushes B Ib eb)
    (f₀ : F.State) (b₀ : B.State) (s₀ : F.State × B.State)
    (hnew : inclusiveNew F B f₀ b₀ = .ok s₀) (hf₀ : If f₀) (hb₀ : Ib b₀)
    (hef : ef f₀ = []) (heb : eb b₀ = []) (hcap : B.capacity b₀ ≤ F.capacity f₀)
    (cs : List (Call K V)) (hcs : ∀ c ∈ cs, c.Within (· = id) (fun _ => True))
    (hfresh : (inclusive F B).FreshCalls (inclusiveGet GF GB)
      (fun s => vis (ef s.1) (eb s.2)) s₀ cs) :
    ∃ out s, (inclusive F B).calls (inclusiveGet GF GB) s₀ cs = .ok (out, s) ∧
      (inclusive F B).size s ≤ (inclusive F B).capacity s ∧
      (inclusive F B).capacity s = B.capacity b₀ ∧
      (((inclusive F B).contents s ++ out).map Prod.fst).Perm ((cs.flatMap Call.given).map Prod.fst) := by
  have hs₀ : s₀ = (f₀, b₀) := by
    unfold inclusiveNew at hnew
    split at hnew
    · cases hnew; rfl
    · cases hnew
  subst hs₀
  have hL := mapLawful hF gF sF fF hB gB sB fB
  have hI : ((If f₀ ∧ Ib b₀ ∧ Consistent (ef f₀) (eb b₀)) ∧ B.capacity b₀ ≤ F.capacity f₀) :=
    ⟨⟨hf₀, hb₀, by rw [hef, heb]; exact ⟨by simp, by simp, by simp, by simp⟩⟩, hcap⟩
  obtain ⟨out, s, h1, h2, h3, h4, h5, -⟩ := hL.calls cs hcs (f₀, b₀) hI hfresh
  refine ⟨out, s, h1, h3, h4, ?_⟩
  obtain ⟨o, s', g1, -, -, g4⟩ := hL.flush s h2
  -- flush empties
  have hemp : vis (ef s'.1) (eb s'.2) = [] := by
    obtain ⟨fo, f1, a1, a2, a3, a4⟩ := hF.flush s.1 h2.1.1
    simp only [inclusive, a1, Res.ok_bind] at g1
    generalize hx : B.takeMultiple s.2 _ = x at g1
    cases x with
    | panic => simp at g1
    | ok r =>
      obtain ⟨r1, r2, b1⟩ := r
      simp only [Res.ok_bind] at g1
      generalize hy : B.push b1 _ = y at g1
      cases y with
      | panic => simp at g1
      | ok r =>
        obtain ⟨r3, b2⟩ := r
        simp only [Res.ok_bind] at g1
        split at g1
        · obtain ⟨q1, q2, q3, q4, q5, -⟩ := hB.takeMultiple s.2 _ h2.1.2.1
          rw [hx] at q4
          cases q4
          obtain ⟨w1, w2, w3, w4, -⟩ := hB.push b1 _ q5 trivial
          rw [hy] at w3
          cases w3
          obtain ⟨o', b3, e1, e2, -⟩ := fB b2 w4
          simp only [e1, Res.ok_bind, Res.pure_eq, Res.ok.injEq] at g1
          obtain ⟨-, rfl⟩ := g1
          simp [vis, e2]
        · simp at g1
  have hcont : (inclusive F B).contents s = o := by simp only [Block.contents, g1]
  rw [hcont]
  rw [hemp, List.nil_append] at g4
  simp only [hef, heb, vis, List.map_nil, List.nil_append] at h5
  rw [List.map_append]
  refine ((g4.map Prod.fst).append_right _).trans ?_
  rw [← List.map_append]
  exact h5

/-- **C15 (write then take), front not evicting.**  From any state in which the copies are flagged
consistently: if the key is already copied in front, or the front has a free slot, `get_mut(k)` finds
the stored value, and after writing `f v` through the cell, `take(k)` hands back `f v`. -/
theorem C15_write_then_take
    (hF : Lawful F If ef fun _ => True) (gF : GetLawful F GF If ef fun _ => True)
    (sF : Slots F If ef) (hB : Lawful B Ib eb fun _ => True)
    (gB : GetLawful B GB Ib eb fun _ => True)
    (s : F.State × B.State) (hs : If s.1 ∧ Ib s.2 ∧ Consistent (ef s.1) (eb s.2)) (k : K)
    (hk : HasKey (eb s.2) k) (hroom : HasKey (ef s.1) k ∨ F.size s.1 < F.capacity s.1) (f : V → V) :
    ∃ v s₁ s₂, (inclusiveGet GF GB).getMut s k f = .ok (some v, s₁) ∧
      (k, v) ∈ vis (ef s.1) (eb s.2) ∧
      (inclusive F B).take s₁ k = .ok (some (k, f v), s₂) ∧
      ((k, v) :: vis (ef s₂.1) (eb s₂.2)).Perm (vis (ef s.1) (eb s.2)) := by
  obtain ⟨o, s₁, h1, h2, h3, h4, h5⟩ := access_spec hF sF gB gF.getMut s k (InclCell.write f) f hs
    (fun a _ => hroom.resolve_left a) (fun _ => rfl) (fun _ => rfl) (fun c hc => Or.inl hc)
  cases o with
  | none => exact absurd (hasKey_vis.2 hk) h5.1
  | some v =>
    obtain ⟨rest, p1, p2⟩ := h5
    obtain ⟨o', s₂, g1, g2, -, -, g5⟩ := take_spec hF hB s₁ k h2
    have hn : ((vis (ef s₁.1) (eb s₁.2)).map Prod.fst).Nodup := by rw [keys_vis]; exact h2.2.2.nb
    cases o' with
    | none => exact absurd (hasKey_of_perm_cons p2) g5.1
    | some e =>
      obtain ⟨k', w⟩ := e
      obtain ⟨hk', hp⟩ := g5
      simp only at hk'
      subst hk'
      have e1 := lk_of_mem hn (hp.subset (List.mem_cons_self))
      have e2 := lk_of_mem hn (p2.symm.subset (List.mem_cons_self))
      rw [e1] at e2
      cases e2
      refine ⟨v, s₁, s₂, h1, p1.symm.subset (by simp), g1, ?_⟩
      have : (vis (ef s₂.1) (eb s₂.2)).Perm rest := List.Perm.cons_inv (hp.trans p2)
      exact (this.cons _).trans p1.symm


/-- What every access of `G` that returns does: the value found is the current one, nothing else changes. -/
def AccessWeak (G : GetOps (inclusive F B)) (If : F.State → Prop) (Ib : B.State → Prop)
    (ef : F.State → List (K × InclCell V)) (eb : B.State → List (K × InclCell V)) : Prop :=
  ∀ (s : F.State × B.State) (k : K) (f : V → V), WInv If Ib ef eb s → ∀ (o : Option V) (s' : F.State × B.State),
    (G.get s k f = .ok (o, s') ∧ f = id ∨ G.getMut s k f = .ok (o, s')) →
    WInv If Ib ef eb s' ∧
      match o with
      | none => (vis (ef s'.1) (eb s'.2)).Perm (vis (ef s.1) (eb s.2))
      | some v => ∃ rest, (vis (ef s.1) (eb s.2)).Perm ((k, v) :: rest) ∧
          (vis (ef s'.1) (eb s'.2)).Perm ((k, f v) :: rest)

theorem accessWeak (hF : Lawful F If ef fun _ => True) (gF : GetLawful F GF If ef fun _ => True)
    (hB : Lawful B Ib eb fun _ => True) (gB : GetLawful B GB Ib eb fun _ => True) :
    AccessWeak (inclusiveGet GF GB) If Ib ef eb := by
  intro s k f hI o s' h
  rcases h with ⟨h, rfl⟩ | h
  · have := access_weak hF hB gB gF.get s k (InclCell.read id) id hI (fun _ => rfl)
      (fun _ => rfl) (fun _ _ => Or.inr ⟨rfl, rfl⟩) o _ h
    cases o <;> exact this
  · have := access_weak hF hB gB gF.getMut s k (InclCell.write f) f hI (fun _ => rfl)
      (fun _ => rfl) (fun c hc => Or.inl hc) o _ h
    cases o <;> exact this

section
variable {okF okB : List (K × InclCell V) → Prop} {G : GetOps (inclusive F B)}

/-- One call or access that returns, with any capacities. -/
theorem call_weak (hF : Lawful F If ef okF) (fF : Flushes F If ef) (hB : Lawful B Ib eb okB)
    (hokB : ∀ l, (l.map Prod.fst).Nodup → okB l) (fB : Flushes B Ib eb) (hG : AccessWeak G If Ib ef eb)
    (s : F.State × B.State) (hI : WInv If Ib ef eb s) (c : Call K V)
    (hc : c.Within (· = id) (fun _ => True))
    (hf : ((vis (ef s.1) (eb s.2) ++ c.given).map Prod.fst).Nodup)
    (out : List (K × V)) (s' : F.State × B.State)
    (he : (inclusive F B).call G s c = .ok (out, s')) :
    WInv If Ib ef eb s' ∧ ∀ e ∈ vis (ef s'.1) (eb s'.2) ++ out, ¬ c.Writes e.1 →
      e ∈ vis (ef s.1) (eb s.2) ++ c.given := by
  cases c with
  | op o =>
    obtain ⟨h1, h2⟩ := step_weak hF fF hB hokB fB s hI o hf out s' he
    exact ⟨h1, fun e he _ => h2.subset he⟩
  | get k f =>
    have hc' : f = id := hc
    subst hc'
    simp only [Block.call] at he
    cases hx : G.get s k id with
    | panic => simp [hx] at he
    | ok r =>
      obtain ⟨o, s1⟩ := r
      simp only [hx, Res.ok_bind, Res.pure_eq, Res.ok.injEq] at he
      obtain ⟨rfl, rfl⟩ := he
      obtain ⟨h1, h2⟩ := hG s k id hI o _ (Or.inl ⟨hx, rfl⟩)
      refine ⟨h1, fun e he _ => ?_⟩
      simp only [List.append_nil, Call.given] at he ⊢
      cases o with
      | none => exact h2.subset he
      | some v =>
        obtain ⟨r, r1, r2⟩ := h2
        exact r1.symm.subset (r2.subset he)
  | getMut k f =>
    simp only [Block.call] at he
    cases hx : G.getMut s k f with
    | panic => simp [hx] at he
    | ok r =>
      obtain ⟨o, s1⟩ := r
      simp only [hx, Res.ok_bind, Res.pure_eq, Res.ok.injEq] at he
      obtain ⟨rfl, rfl⟩ := he
      obtain ⟨h1, h2⟩ := hG s k f hI o _ (Or.inr hx)
      refine ⟨h1, fun e he hw => ?_⟩
      simp only [List.append_nil, Call.given] at he ⊢
      cases o with
      | none => exact h2.subset he
      | some v =>
        obtain ⟨r, r1, r2⟩ := h2
        rcases List.mem_cons.1 (r2.subset he) with rfl | he
        · exact absurd rfl hw
        · exact r1.symm.subset (List.mem_cons_of_mem _ he)

/-- Histories that return, with any capacities: an element of key `k` seen at the end, or handed back
on the way, is one that was there at the start, if nothing pushed or wrote to this key. -/
theorem calls_weak (hF : Lawful F If ef okF) (fF : Flushes F If ef) (hB : Lawful B Ib eb okB)
    (hokB : ∀ l, (l.map Prod.fst).Nodup → okB l) (fB : Flushes B Ib eb) (hG : AccessWeak G If Ib ef eb) (k : K) :
    ∀ (cs : List (Call K V)) (s : F.State × B.State) (_ : WInv If Ib ef eb s)
    (_ : ∀ c ∈ cs, c.Within (· = id) (fun _ => True))
    (_ : (inclusive F B).FreshCalls G (fun s => vis (ef s.1) (eb s.2)) s cs)
    (out : List (K × V)) (s' : F.State × B.State)
    (_ : (inclusive F B).calls G s cs = .ok (out, s')),
    WInv If Ib ef eb s' ∧ ((∀ c ∈ cs, ¬ c.Writes k ∧ ¬ HasKey c.given k) →
      ∀ e ∈ vis (ef s'.1) (eb s'.2) ++ out, e.1 = k → e ∈ vis (ef s.1) (eb s.2)) := by
  intro cs
  induction cs with
  | nil =>
    intro s hI _ _ out s' he
    cases he
    exact ⟨hI, fun _ e he _ => by simpa using he⟩
  | cons c cs ih =>
    intro s hI hcs hf out s' he
    simp only [Block.calls] at he
    cases h1 : (inclusive F B).call G s c with
    | panic => simp [h1] at he
    | ok r =>
      obtain ⟨o1, s1⟩ := r
      simp only [h1, Res.ok_bind] at he
      cases h2 : (inclusive F B).calls G s1 cs with
      | panic => simp [h2] at he
      | ok r =>
        obtain ⟨o2, s2⟩ := r
        simp only [h2, Res.ok_bind, Res.pure_eq, Res.ok.injEq] at he
        obtain ⟨rfl, rfl⟩ := he
        obtain ⟨a1, a2⟩ := call_weak hF fF hB hokB fB hG s hI c (hcs c (by simp))
          (hf.1 (by rw [keys_vis]; exact hI.2.2.nb)) o1 s1 h1
        obtain ⟨b1, b2⟩ := ih s1 a1 (fun c hc => hcs c (by simp [hc])) (hf.2 _ _ h1) o2 _ h2
        refine ⟨b1, fun hno e he hk => ?_⟩
        have hcase : e ∈ vis (ef s1.1) (eb s1.2) ++ o1 := by
          simp only [List.mem_append] at he ⊢
          rcases he with he | he | he
          · exact Or.inl (b2 (fun c hc => hno c (by simp [hc])) e (by simp [he]) hk)
          · exact Or.inr he
          · exact Or.inl (b2 (fun c hc => hno c (by simp [hc])) e (by simp [he]) hk)
        subst hk
        rcases List.mem_append.1 (a2 e hcase (hno c (by simp)).1) with h | h
        · exact h
        · exact absurd ⟨e.2, h⟩ (hno c (by simp)).2

/-- Never a stale value: see `C15_never_stale`. -/
theorem never_stale (hF : Lawful F If ef okF) (fF : Flushes F If ef) (hB : Lawful B Ib eb okB)
    (hokB : ∀ l, (l.map Prod.fst).Nodup → okB l) (fB : Flushes B Ib eb) (hG : AccessWeak G If Ib ef eb)
    (s₀ : F.State × B.State) (hf₀ : If s₀.1) (hb₀ : Ib s₀.2) (hef : ef s₀.1 = []) (heb : eb s₀.2 = [])
    (cs₁ cs₂ : List (Call K V)) (k : K) (f : V → V)
    (hcs₁ : ∀ c ∈ cs₁, c.Within (· = id) (fun _ => True))
    (hcs₂ : ∀ c ∈ cs₂, c.Within (· = id) (fun _ => True))
    (hno : ∀ c ∈ cs₂, ¬ c.Writes k ∧ ¬ HasKey c.given k)
    (out₁ : List (K × V)) (s₁ : F.State × B.State)
    (h₁ : (inclusive F B).calls G s₀ cs₁ = .ok (out₁, s₁))
    (v : V) (s₂ : F.State × B.State)
    (h₂ : G.getMut s₁ k f = .ok (some v, s₂))
    (out₂ : List (K × V)) (s₃ : F.State × B.State)
    (h₃ : (inclusive F B).calls G s₂ cs₂ = .ok (out₂, s₃))
    (hfresh₁ : (inclusive F B).FreshCalls G (fun s => vis (ef s.1) (eb s.2)) s₀ cs₁)
    (hfresh₂ : (inclusive F B).FreshCalls G (fun s => vis (ef s.1) (eb s.2)) s₂ cs₂) :
    (∀ w, (k, w) ∈ out₂ → w = f v) ∧
    (∀ w s₄, G.get s₃ k id = .ok (some w, s₄) → w = f v) := by
  have hI₀ : WInv If Ib ef eb s₀ := ⟨hf₀, hb₀, by rw [hef, heb]; exact ⟨by simp, by simp, by simp⟩⟩
  obtain ⟨hI₁, -⟩ := calls_weak hF fF hB hokB fB hG k cs₁ s₀ hI₀ hcs₁ hfresh₁ out₁ s₁ h₁
  obtain ⟨hI₂, rest, p1, p2⟩ := hG s₁ k f hI₁ (some v) s₂ (Or.inr h₂)
  obtain ⟨hI₃, hk⟩ := calls_weak hF fF hB hokB fB hG k cs₂ s₂ hI₂ hcs₂ hfresh₂ out₂ s₃ h₃
  have hn₂ : ((vis (ef s₂.1) (eb s₂.2)).map Prod.fst).Nodup := by rw [keys_vis]; exact hI₂.2.2.nb
  have hv : ∀ w, (k, w) ∈ vis (ef s₂.1) (eb s₂.2) → w = f v := by
    intro w hw
    have e1 := lk_of_mem hn₂ hw
    have e2 := lk_of_mem hn₂ (p2.symm.subset (List.mem_cons_self))
    rw [e1] at e2
    cases e2
    rfl
  refine ⟨fun w hw => hv w (hk hno (k, w) (by simp [hw]) rfl), fun w s₄ hw => ?_⟩
  obtain ⟨-, r, r1, -⟩ := hG s₃ k id hI₃ (some w) s₄ (Or.inl ⟨hw, rfl⟩)
  exact hv w (hk hno (k, w) (by simp [r1.symm.subset (List.mem_cons_self)]) rfl)

end

/-- **C15 (never a stale value), any capacities.**  Take any history on a new `Inclusive` (which never
pushes a key already stored, and reads without side effects).  Suppose it reaches `get_mut(k)`, which
finds a value `v`, and `f v` is written through the cell.  Then, whatever is called next — as long as
`k` is not written to or pushed again — every element of key `k` handed back has value `f v`, and so
does every later `get(k)` that finds something.  (The history may instead panic or lose the element:
C14.) -/
theorem C15_never_stale
    (hF : Lawful F If ef fun _ => True) (gF : GetLawful F GF If ef fun _ => True)
    (fF : Flushes F If ef)
    (hB : Lawful B Ib eb fun _ => True) (gB : GetLawful B GB Ib eb fun _ => True)
    (fB : Flushes B Ib eb)
    (s₀ : F.State × B.State) (hf₀ : If s₀.1) (hb₀ : Ib s₀.2) (hef : ef s₀.1 = []) (heb : eb s₀.2 = [])
    (cs₁ cs₂ : List (Call K V)) (k : K) (f : V → V)
    (hcs₁ : ∀ c ∈ cs₁, c.Within (· = id) (fun _ => True))
    (hcs₂ : ∀ c ∈ cs₂, c.Within (· = id) (fun _ => True))
    (hno : ∀ c ∈ cs₂, ¬ c.Writes k ∧ ¬ HasKey c.given k)
    (out₁ : List (K × V)) (s₁ : F.State × B.State)
    (h₁ : (inclusive F B).calls (inclusiveGet GF GB) s₀ cs₁ = .ok (out₁, s₁))
    (v : V) (s₂ : F.State × B.State)
    (h₂ : (inclusiveGet GF GB).getMut s₁ k f = .ok (some v, s₂))
    (out₂ : List (K × V)) (s₃ : F.State × B.State)
    (h₃ : (inclusive F B).calls (inclusiveGet GF GB) s₂ cs₂ = .ok (out₂, s₃))
    (hfresh₁ : (inclusive F B).FreshCalls (inclusiveGet GF GB)
      (fun s => vis (ef s.1) (eb s.2)) s₀ cs₁)
    (hfresh₂ : (inclusive F B).FreshCalls (inclusiveGet GF GB)
      (fun s => vis (ef s.1) (eb s.2)) s₂ cs₂) :
    (∀ w, (k, w) ∈ out₂ → w = f v) ∧
    (∀ w s₄, (inclusiveGet GF GB).get s₃ k id = .ok (some w, s₄) → w = f v) := by
  exact never_stale hF fF hB (fun _ _ => trivial) fB (accessWeak hF gF hB gB) s₀ hf₀ hb₀ hef heb cs₁ cs₂ k f hcs₁ hcs₂ hno
    out₁ s₁ h₁ v s₂ h₂ out₂ s₃ h₃ hfresh₁ hfresh₂

end

/-! ## Non-vacuity -/

theorem cellArray_lawful : Lawful cellArray (Array.Inv fun _ => 1) Array.values fun _ => True :=
  Array.lawful _ _ _

theorem cellArray_get : GetLawful cellArray cellGet (Array.Inv fun _ => 1) Array.values fun _ => True :=
  (Array.getLawful _ _ _).mono (fun _ _ _ _ => rfl)

theorem cellArray_flushes : Flushes cellArray (Array.Inv fun _ => 1) Array.values :=
  Array.flushes _ _ _

/-- C14 applies to `Inclusive<Array(3), Array(3)>` and a history with reads and writes. -/
example := C14_partial cellArray_lawful cellArray_get (Array.slots _ _) cellArray_flushes
  cellArray_lawful cellArray_get (Array.slots _ _) cellArray_flushes
  (Array.new 3) (Array.new 3) (Array.new 3, Array.new 3) rfl (Array.new_inv _ 3) (Array.new_inv _ 3)
  rfl rfl (by decide) (evicting ++ [.getMut 1 (· + 1), .op (.take 1), .op (.pop 1)])
  (by
    intro c hc
    simp only [evicting, List.cons_append, List.nil_append, List.mem_cons, List.not_mem_nil,
      or_false] at hc
    rcases hc with rfl | rfl | rfl | rfl | rfl | rfl <;> trivial)
  (evicting_fresh _ (by simp [Call.given, Op.given]) 3 3)

/-- Here the written value comes back (11), with capacities that make the front evict: the copy of 1
is written to, evicted by the read of 2, and read again. -/
example : ∃ s, twoArrays.calls twoGets (Array.new 1, Array.new 2)
    [.op (.push [(1, 10), (2, 20)]), .getMut 1 (· + 1), .get 2 id, .get 1 id, .op (.take 1)] =
    .ok ([(1, 11)], s) := ⟨_, rfl⟩

end InclusiveProps
end Byoc
