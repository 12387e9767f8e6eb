import Verif.Proofs.StreamGet
import Verif.Props.StreamStackProps

/-!
# C119: `get` and `get_mut` through any nesting over `Array`, `Stream` and `Compressed`
-/

namespace Byoc
namespace StreamGetProps

open StreamStackProps (inside Allowed)

variable {K V : Type}

/-! ## Specification -/

/-- What an access to `k` found, and what is inside before and after: nothing found and nothing changed, or a value of
`k` found and this value changed by `f` (a value that is only read may be left as it was: the cell may be a copy), all the
rest being the same. -/
def Accessed (write : Bool) (before : List (K × V)) (k : K) (f : V → V) (o : Option V)
    (after : List (K × V)) : Prop :=
  match o with
  | none => after.Perm before
  | some v => ∃ w rest, (w = f v ∨ (write = false ∧ w = v)) ∧ before.Perm ((k, v) :: rest) ∧
      after.Perm ((k, w) :: rest)

/-- The user's account of a history: every call returns, elements are put in or handed back, accesses find and change what is
said by `Accessed`, and at the end the container and the account satisfy `End`.  If `sure`, the accesses return and find what is
inside; otherwise the history may also end with an access that panics. -/
def Follows (sure : Prop) (B : Block K V) (G : GetOps B) (End : B.State → List (K × V) → Prop) :
    B.State → List (K × V) → List (Call K V) → Prop
  | s, held, [] => End s held
  | s, held, .op o :: cs => ∃ out s' held', B.step s o = .ok (out, s') ∧
      (held' ++ out).Perm (held ++ o.given) ∧ Follows sure B G End s' held' cs
  | s, held, .get k f :: cs => (¬ sure ∧ G.get s k f = .panic) ∨
      ∃ o s' held', G.get s k f = .ok (o, s') ∧ (sure → (o = none ↔ ¬ HasKey held k)) ∧
        Accessed false held k f o held' ∧ Follows sure B G End s' held' cs
  | s, held, .getMut k f :: cs => (¬ sure ∧ G.getMut s k f = .panic) ∨
      ∃ o s' held', G.getMut s k f = .ok (o, s') ∧ (sure → (o = none ↔ ¬ HasKey held k)) ∧
        Accessed true held k f o held' ∧ Follows sure B G End s' held' cs

/-- The calls considered: those of C114, and accesses that keep the room an element takes. -/
def Legal (t : StoreStack K V) (a : t.Accesses) : Call K V → Prop
  | .op o => Allowed t o
  | .get _ f => t.Allows false a f
  | .getMut _ f => t.Allows true a f

/-- What the container then shows: `held` is inside, `contains` and `take` find it, `pop` and `push` keep it. -/
structure Shows (B : Block K V) (cap : Nat) (s : B.State) (held : List (K × V)) : Prop where
  inside : (inside B s).Perm held
  size : B.size s ≤ B.capacity s
  empty : held = [] → B.size s = 0
  capacity : B.capacity s = cap
  contains : ∀ k, ∃ b s', B.contains s k = .ok (b, s') ∧ (b = true ↔ HasKey held k)
  take : ∀ k, ∃ o s', B.take s k = .ok (o, s') ∧ (∀ e, o = some e → e.1 = k ∧ e ∈ held) ∧
    (o = none ↔ ¬ HasKey held k)
  pop : ∀ n, ∃ out s', B.pop s n = .ok (out, s') ∧ out.Subperm held ∧
    (B.size s' + n ≤ B.size s ∨ out.Perm held)

/-- **C119 in full**: in every nesting the accesses of any history return and find what is inside. -/
def C119_full : Prop := ∀ (V : Type) (t : StoreStack Nat V) (a : t.Accesses), t.WF → t.NoAssociative →
  t.Faithful a → ∀ s₀ : t.block.State, t.Init s₀ → ∀ cs : List (Call Nat V), (∀ c ∈ cs, Legal t a c) →
    Follows True t.block (t.gets a) (Shows t.block (t.block.capacity s₀)) s₀ [] cs

/-! ## Proofs -/

section
variable [LinearOrder K]

theorem follows (sure : Prop) (t : StoreStack K V) (a : t.Accesses) (hw : t.WF) (ha : t.NoAssociative)
    (hf : t.Faithful a) (hn : sure → t.NoExclusive) (cap : Nat) (cs : List (Call K V))
    (hcs : ∀ c ∈ cs, Legal t a c) : ∀ (s : t.block.State) (held : List (K × V)), t.Inv s →
    held.Perm (t.elems s) → t.block.capacity s = cap →
    Follows sure t.block (t.gets a) (Shows t.block cap) s held cs := by
  have L := t.lawful false hw ha (fun h => (nomatch h))
  have M := t.may sure hw hn a hf
  induction cs with
  | nil =>
    intro s held hs hp hc
    have pi := StreamStackProps.inside_perm L s hs
    refine ⟨pi.trans hp.symm, L.bounded s hs, ?_, hc, ?_, ?_, ?_⟩
    · intro h; exact L.empty_size s hs (by rw [h] at hp; exact hp.nil_eq.symm)
    · intro k
      obtain ⟨b, s', a1, -, -, -, -, a6⟩ := L.contains s k hs
      exact ⟨b, s', a1, a6.trans (hasKey_perm hp).symm⟩
    · intro k
      obtain ⟨o, s', a1, -, -, a4⟩ := L.take s k hs
      refine ⟨o, s', a1, ?_⟩
      rw [hasKey_perm hp]
      cases o with
      | none => exact ⟨by simp, by simpa using a4.1⟩
      | some e =>
        have hm : e ∈ t.elems s := a4.2.subset (by simp)
        refine ⟨by rintro _ ⟨⟩; exact ⟨a4.1, hp.symm.subset hm⟩, ?_⟩
        simp only [reduceCtorEq, false_iff, not_not]
        exact ⟨e.2, by rw [← a4.1]; exact hm⟩
    · intro n
      obtain ⟨out, s', a1, -, -, a4, a5⟩ := L.pop s n hs
      refine ⟨out, s', a1, ?_, ?_⟩
      · exact (List.sublist_append_right _ _).subperm.trans (a4.trans hp.symm).subperm
      · rcases a5 with a5 | a5
        · exact .inl a5
        · right; rw [a5] at a4; simpa using a4.trans hp.symm
  | cons c cs ih =>
    intro s held hs hp hc
    have hl := hcs c (by simp)
    have rec_ := ih (fun c hc => hcs c (by simp [hc]))
    cases c with
    | op o =>
      obtain ⟨fl, hn, h1, h2⟩ := StreamStackProps.allowed_patch t [o] (by
        intro op hop; rw [List.mem_singleton.1 hop]; exact hl)
      obtain ⟨out, s', g1, g2, -, g4, g5⟩ := (t.lawful fl hw ha hn).run [o] (fun op _ => by cases op <;> trivial) s hs
      rw [StreamStackProps.run_patch t.block [o] h1 h2 s] at g1
      obtain ⟨out', s1, e1, e2, e3⟩ : ∃ out' s1, t.block.step s o = .ok (out', s1) ∧ s1 = s' ∧ out' = out := by
        have g1' : (t.block.step s o >>= fun r => (.ok (r.1 ++ [], r.2) : Res (List (K × V) × t.block.State))) =
          .ok (out, s') := g1
        cases hst : t.block.step s o with
        | panic => rw [hst] at g1'; cases g1'
        | ok r =>
          rw [hst] at g1'
          obtain ⟨r1, r2⟩ := r
          simp only [Res.ok_bind, List.append_nil, Res.ok.injEq] at g1'
          cases g1'
          exact ⟨_, _, rfl, rfl, rfl⟩
      subst e2 e3
      refine ⟨out', s1, t.elems s1, e1, ?_, rec_ s1 _ g2 (List.Perm.refl _) (g4.trans hc)⟩
      simp only [List.flatMap_cons, List.flatMap_nil, List.append_nil] at g5
      perms [g5, hp]
    | get k f =>
      rcases M.1 s k f hs hl with ⟨h1, h2⟩ | ⟨o, s', h1, h2, h3, h4⟩
      · exact .inl ⟨h1, h2⟩
      · refine .inr ⟨o, s', t.elems s', h1, ?_, ?_, rec_ s' _ h2 (List.Perm.refl _) (h3.trans hc)⟩
        · intro hsu
          rw [hasKey_perm hp]
          cases o with
          | none => simpa using h4.1 hsu
          | some v => obtain ⟨w, r, -, p1, -⟩ := h4; simpa using hasKey_of_perm_cons p1
        · cases o with
          | none => exact h4.2.trans hp.symm
          | some v => obtain ⟨w, r, hw, p1, p2⟩ := h4; exact ⟨w, r, hw, hp.trans p1, p2⟩
    | getMut k f =>
      rcases M.2 s k f hs hl with ⟨h1, h2⟩ | ⟨o, s', h1, h2, h3, h4⟩
      · exact .inl ⟨h1, h2⟩
      · refine .inr ⟨o, s', t.elems s', h1, ?_, ?_, rec_ s' _ h2 (List.Perm.refl _) (h3.trans hc)⟩
        · intro hsu
          rw [hasKey_perm hp]
          cases o with
          | none => simpa using h4.1 hsu
          | some v => obtain ⟨w, r, -, p1, -⟩ := h4; simpa using hasKey_of_perm_cons p1
        · cases o with
          | none => exact h4.2.trans hp.symm
          | some v => obtain ⟨w, r, hw, p1, p2⟩ := h4; exact ⟨w, r, hw, hp.trans p1, p2⟩

/-- **C119, what holds.**  A container nested in any way over `Array`s, `Stream`s and `Compressed`s, any
history of `contains`, `take`, `pop`, `push`, (`flush` if no `Stream` is inside,) `get` and `get_mut`, the accesses changing values
without changing the room they take: no call but an access panics; an access that returns found nothing and changed nothing, or found
a value of the key inside and changed this value only; and after the history what is inside, what `contains`, `take` and `pop`
say of it, is what was given, as written, and not handed back. -/
theorem C119_partial (t : StoreStack K V) (a : t.Accesses) (hw : t.WF) (ha : t.NoAssociative)
    (hf : t.Faithful a) (s₀ : t.block.State) (h₀ : t.Init s₀) (cs : List (Call K V))
    (hcs : ∀ c ∈ cs, Legal t a c) :
    Follows False t.block (t.gets a) (Shows t.block (t.block.capacity s₀)) s₀ [] cs :=
  follows False t a hw ha hf (fun h => h.elim) _ cs hcs s₀ [] (t.init_inv hw s₀ h₀)
    (by rw [t.init_elems hw s₀ h₀]) rfl

/-- **C119 without `Exclusive`**: the accesses always return, and find a value whenever the key is inside. -/
theorem C119_flat (t : StoreStack K V) (a : t.Accesses) (hw : t.WF) (ha : t.NoAssociative)
    (hf : t.Faithful a) (hn : t.NoExclusive) (s₀ : t.block.State) (h₀ : t.Init s₀) (cs : List (Call K V))
    (hcs : ∀ c ∈ cs, Legal t a c) :
    Follows True t.block (t.gets a) (Shows t.block (t.block.capacity s₀)) s₀ [] cs :=
  follows True t a hw ha hf (fun _ => hn) _ cs hcs s₀ [] (t.init_inv hw s₀ h₀)
    (by rw [t.init_elems hw s₀ h₀]) rfl

end

/-! ## Witnesses -/

open StreamStackProps (tiers tiers_wf)

/-- Values 1 and 2 exchanged: their elements take 4 bytes both. -/
def swap12 (v : Nat) : Nat := if v = 1 then 2 else if v = 2 then 1 else v

theorem swap12_keeps (k v c : Nat) (h : StreamProps.IsChunkOf StreamProps.small (k, v) c) :
    StreamProps.IsChunkOf StreamProps.small (k, swap12 v) c := by
  by_cases h1 : v = 1
  · subst h1
    obtain ⟨b, i, e1, e2, e3, e4, -⟩ := h
    simp only [StreamProps.small, Option.ite_none_right_eq_some, Option.some.injEq] at e1
    obtain ⟨⟨hk, -⟩, rfl⟩ := e1
    refine ⟨_, i, by simp only [StreamProps.small, swap12]; rw [if_pos ⟨hk, by decide⟩], e2, ?_, ?_, by simp⟩
    · simp at e3 ⊢
      by_contra hc
      have h3 : c = 3 := by omega
      rw [h3] at e2
      match i with
      | 0 => omega
      | 1 => omega
      | i + 2 => rw [Nat.pow_add] at e2; omega
    · intro _ j hj
      exact e4 (by simp) j (by simp at hj ⊢; omega)
  · by_cases h2 : v = 2
    · subst h2
      obtain ⟨b, i, e1, e2, e3, e4, -⟩ := h
      simp only [StreamProps.small, Option.ite_none_right_eq_some, Option.some.injEq] at e1
      obtain ⟨⟨hk, -⟩, rfl⟩ := e1
      refine ⟨_, i, by simp only [StreamProps.small, swap12]; rw [if_pos ⟨hk, by decide⟩], e2, ?_, ?_, by simp⟩
      · simp at e3 ⊢; omega
      · intro _ j hj
        refine e4 (by simp) j ?_
        simp at hj ⊢
        match j with
        | 0 => omega
        | 1 => omega
        | j + 2 => rw [Nat.pow_add]; have := Nat.one_le_two_pow (n := j); omega
    · simpa [swap12, h1, h2] using h

/-- A `Profiler` of a `Batch` of `Stream`s. -/
def streams : StoreStack Nat Nat := .profiler (.batch (.stream inferInstance StreamProps.small id))

/-- Calls on it. -/
def streamsCalls : List (Call Nat Nat) :=
  [.op (.push [(1, 1), (1, 2), (2, 1)]), .getMut 1 swap12, .get 2 (fun _ => 7), .op (.take 1), .op (.pop 3)]

/-- The hypotheses of C119_flat are met by calls on `streams`, and the history: the element written is handed out. -/
example : streams.WF ∧ streams.NoAssociative ∧ streams.NoExclusive ∧ streams.Faithful () ∧
    (∃ s₀ : streams.block.State, streams.Init s₀ ∧ streams.block.capacity s₀ = 12) ∧
    (∀ c ∈ streamsCalls, Legal streams () c) := by
  refine ⟨StreamProps.small_small, trivial, trivial, trivial,
    ⟨(([ByteStream.new 8, ByteStream.new 4] : List ByteStream), {}), ⟨?_, rfl⟩, by decide⟩, ?_⟩
  · intro x hx
    rcases List.mem_cons.1 hx with rfl | hx
    · exact ⟨8, rfl⟩
    · rcases List.mem_singleton.1 hx with rfl
      exact ⟨4, rfl⟩
  · intro c hc
    simp only [streamsCalls, List.mem_cons, List.not_mem_nil, or_false] at hc
    rcases hc with rfl | rfl | rfl | rfl | rfl
    · trivial
    · exact fun _ => swap12_keeps
    · exact fun h => (nomatch h)
    · trivial
    · trivial

example : ((streams.block.calls (streams.gets ()) (([ByteStream.new 8, ByteStream.new 4] : List ByteStream), {})
    streamsCalls).bind fun r => .ok r.1) = .ok [(1, 2), (2, 1)] := by decide +kernel

/-- **C119, missed.**  The front has no room: `get` does not find what `contains` says is inside. -/
theorem C119_misses :
    ((tiers.block.run (Array.new 0, ByteStream.new 16) [.push [(1, 0)]]).bind fun r =>
      ((tiers.gets ()).get r.2 1 id).bind fun q => (tiers.block.contains q.2 1).bind fun p =>
        .ok (r.1, q.1, p.1)) = .ok ([], none, true) := by
  decide +kernel

/-- Two elements pushed in turn. -/
def pushTwo : List (Call Nat Nat) := [.op (.push [(1, 0)]), .op (.push [(2, 9)])]

/-- The panic of a call on `tiers`. -/
theorem panic_of {α : Type} {r : Res α} (h : (r.bind fun _ => .ok ()) = .panic) : r = .panic := by
  cases r with
  | panic => rfl
  | ok a => cases h

/-- **C119, a panic.**  An element moved to the front pushes out a larger one, which the `Stream` behind has not room for:
both are inside, `get` of the first panics. -/
theorem C119_panics :
    ((tiers.block.calls (tiers.gets ()) (Array.new 1, ByteStream.new 4) pushTwo).bind fun r =>
      .ok (r.1, inside tiers.block r.2)) = .ok ([], [(1, 0), (2, 9)]) ∧
    tiers.block.calls (tiers.gets ()) (Array.new 1, ByteStream.new 4) (pushTwo ++ [.get 1 id]) = .panic :=
  ⟨by decide +kernel, panic_of (by decide +kernel)⟩

/-- **C119 is false of the code.** -/
theorem C119_false : ¬ C119_full := by
  intro h
  obtain ⟨out, s, held, h1, h2, h3⟩ := h Nat tiers () tiers_wf ⟨trivial, trivial⟩ trivial
    ((Array.new 0, ByteStream.new 16) : Array Nat Nat × ByteStream) ⟨⟨0, rfl⟩, ⟨16, rfl⟩⟩
    [.op (.push [(1, 0)]), .get 1 id] (by
      intro c hc
      simp only [List.mem_cons, List.not_mem_nil, or_false] at hc
      rcases hc with rfl | rfl
      · trivial
      · exact fun _ _ => rfl)
  rcases h3 with ⟨h0, -⟩ | ⟨o, s', held', g1, g2, -⟩
  · exact h0 trivial
  · have e : (((tiers.block.step ((Array.new 0, ByteStream.new 16) : Array Nat Nat × ByteStream)
        (.push [(1, 0)])).bind fun r => ((tiers.gets ()).get r.2 1 id).bind fun q => .ok (r.1, q.1))) =
        (.ok ([], none) : Res (List (Nat × Nat) × Option Nat)) := by decide +kernel
    rw [h1] at e
    have e' : (((tiers.gets ()).get s 1 id).bind fun q => .ok (out, q.1)) =
      (.ok ([], none) : Res (List (Nat × Nat) × Option Nat)) := e
    rw [g1] at e'
    have e2 : (Res.ok (out, o) : Res (List (Nat × Nat) × Option Nat)) = .ok ([], none) := e'
    simp only [Res.ok.injEq, Prod.mk.injEq] at e2
    rw [e2.1] at h2
    have hm : ((1, 0) : Nat × Nat) ∈ held ++ [] := h2.symm.subset (by simp [Op.given])
    exact (g2 trivial).1 e2.2 ⟨0, by simpa using hm⟩

end StreamGetProps
end Byoc
