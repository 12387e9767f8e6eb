import Verif.Proofs.Config
import Verif.Proofs.Stack

/-! # Containers built from configurations satisfy the contract -/

namespace Byoc

variable {K V : Type}

/-- The container satisfies the contract in its initial, empty, state; with `na`, `pop` included; with
`nf`, `flush` empties it. -/
def Good (na nf : Prop) (b : Built K V) : Prop :=
  ∃ Inv elems, Core b.block Inv elems (fun _ => True) ∧ Fair b.block Inv ∧
    (na → Lawful b.block Inv elems (fun _ => True)) ∧ (nf → Flushes b.block Inv elems) ∧
    Inv b.state ∧ elems b.state = []

theorem Good.new {na nf : Prop} {B : Block K V} {s : B.State} {c : Bool} {Inv elems}
    (hC : Core B Inv elems (fun _ => True)) (hL : na → Lawful B Inv elems (fun _ => True))
    (hF : nf → Flushes B Inv elems) (hI : Inv s) (he : elems s = []) : Good na nf (Built.new B s c) :=
  ⟨Inv, elems, viaDefault_core hC, viaDefault_fair hC, fun h => viaDefault_lawful (hL h),
    fun h => viaDefault_flushes (hF h), hI, he⟩

theorem Good.mono {na nf na' nf' : Prop} {b : Built K V} (h : Good na nf b) (ha : na' → na)
    (hf : nf' → nf) : Good na' nf' b := by
  obtain ⟨I, e, h1, h2, h3, h4, h5⟩ := h
  exact ⟨I, e, h1, h2, fun x => h3 (ha x), fun x => h4 (hf x), h5⟩

variable {na nf : Prop}

theorem Good.exclusive [LinearOrder K] {f b : Built K V} {c : Bool} (hf : Good na nf f) (hb : Good na nf b) :
    Good na nf (Built.new (Byoc.exclusive f.block b.block) (f.state, b.state) c) := by
  obtain ⟨If, ef, f1, -, f3, f4, f5, f6⟩ := hf
  obtain ⟨Ib, eb, b1, -, b3, b4, b5, b6⟩ := hb
  exact .new (exclusive_core f1 b1) (fun h => exclusive_lawful (f3 h) (b3 h))
    (fun h => exclusive_flushes f1 b1 (f4 h) (b4 h)) ⟨f5, b5⟩ (by simp [exclusiveElems, f6, b6])

theorem Good.flushStopper {x : Built K V} {c : Bool} (h : Good na nf x) :
    Good na False (Built.new (Byoc.flushStopper x.block) x.state c) := by
  obtain ⟨I, e, h1, -, h3, -, h5, h6⟩ := h
  exact .new (flushStopper_core h1) (fun h => flushStopper_lawful (h3 h)) (fun h => h.elim) h5 h6

theorem Good.sequential {x : Built K V} {c : Bool} (h : Good na nf x) :
    Good na nf (Built.new (Byoc.sequential x.block) x.state c) := by
  obtain ⟨I, e, h1, -, h3, h4, h5, h6⟩ := h
  exact .new (B := Byoc.sequential x.block) h1 h3 h4 h5 h6

theorem Good.profiler [LinearOrder K] {x : Built K V} {c : Bool} (h : Good na nf x) :
    Good na nf (Built.new (Byoc.profiler x.block) (x.state, {}) c) := by
  obtain ⟨I, e, h1, h2, h3, h4, h5, h6⟩ := h
  exact .new (profiler_core h1 h2) (fun h => profiler_lawful (h3 h) h2)
    (fun h => profiler_flushes (h4 h)) h5 h6

theorem Good.decorator [LinearOrder K] (D : Decoration V) (hD : D.Faithful) {x : Built K D.Item}
    {fac : D.Factory} {c : Bool} (h : Good na nf x) :
    Good na nf (Built.new (Byoc.decorator D x.block) (x.state, fac) c) := by
  obtain ⟨I, e, h1, -, h3, h4, h5, h6⟩ := h
  exact .new ((decorator_core D hD h1).mono (fun _ _ _ => trivial))
    (fun h => (decorator_lawful D hD (h3 h)).mono (fun _ _ _ => trivial))
    (fun h => decorator_flushes D (h4 h)) h5 (by simp [decoratorElems, h6])

/-- Several of them, as values of one type. -/
theorem Good.all (l : List (Built K V)) (h : ∀ b ∈ l, Good na nf b) :
    ∃ Inv elems, Core (Built.all l) Inv elems (fun _ => True) ∧
      (na → Lawful (Built.all l) Inv elems (fun _ => True)) ∧ (nf → Flushes (Built.all l) Inv elems) ∧
      ∀ s ∈ Built.states l, Inv s ∧ elems s = [] := by
  have hg : ∀ i : Fin l.length, Good na nf (l.get i) := fun i => h _ (List.get_mem l i)
  choose I e h1 _ h3 h4 h5 h6 using hg
  refine ⟨_, _, anyOf_core h1, fun x => anyOf_lawful fun i => h3 i x, fun x => anyOf_flushes fun i => h4 i x, ?_⟩
  intro s hs
  obtain ⟨i, rfl⟩ : ∃ i : Fin l.length, (⟨i, (l.get i).state⟩ : Σ i : Fin l.length, (l.get i).block.State) = s :=
    List.mem_ofFn.1 hs
  exact ⟨h5 i, h6 i⟩

theorem Good.batch {l : List (Built K V)} {c : Bool} (h : ∀ b ∈ l, Good na nf b) :
    Good na nf (Built.new (Byoc.batch (Built.all l)) (Built.states l) c) := by
  obtain ⟨I, e, h1, h3, h4, h5⟩ := Good.all l h
  exact .new (batch_core h1) (fun h => batch_lawful (h3 h)) (fun h => batch_flushes (h4 h))
    (fun s hs => (h5 s hs).1) (List.flatMap_eq_nil_iff.2 fun s hs => (h5 s hs).2)

theorem Good.associative [LinearOrder K] {hash : K → Nat} {l : List (Built K V)} {c : Bool} (hne : l ≠ [])
    (h : ∀ b ∈ l, Good na nf b) :
    Good False nf (Built.new (Byoc.associative hash (Built.all l)) (Built.states l) c) := by
  obtain ⟨I, e, h1, h3, h4, h5⟩ := Good.all l h
  refine .new (associative_core (hash := hash) h1 (fun _ _ _ => trivial)) (fun h => h.elim)
    (fun h => associative_flushes (h4 h)) ⟨?_, ?_⟩ (List.flatMap_eq_nil_iff.2 fun s hs => (h5 s hs).2)
  · have : (Built.states l).length = l.length := List.length_ofFn
    exact this.symm ▸ List.length_pos_iff.2 hne
  · intro i x hx
    have hm := List.mem_of_getElem? hx
    exact ⟨(h5 x hm).1, by rw [(h5 x hm).2]; simp⟩

end Byoc
