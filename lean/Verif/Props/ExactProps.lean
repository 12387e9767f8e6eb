import Verif.Proofs.Exact
import Verif.Props.StackProps

/-! # C63, C64: containers counting elements store and evict exactly what they must -/

namespace Byoc
namespace ExactProps

open ArrayProps StackProps

variable {K V : Type} [LinearOrder K]

/-- A state some history of calls on a new container leads to: calls of the trait on any container, or
calls of the trait mixed with `get` and `get_mut` on a container where the front of each `Exclusive`
has room. -/
def Reached (t : Stack K V) (s : t.block.State) : Prop :=
  (∃ s₀, t.Init s₀ ∧ Reachable t.block s₀ s) ∨
  (t.GetWF ∧ ∃ s₀ cs out, t.Init s₀ ∧ t.FrontRoom s₀ ∧ t.block.calls t.gets s₀ cs = .ok (out, s))

theorem Reached.inv {t : Stack K V} (hw : t.WF) (hc : t.Counting) {s : t.block.State}
    (h : Reached t s) : ∃ p, t.Inv p s := by
  have hn := t.counting_noAssociative hc
  rcases h with ⟨s₀, hi, hr⟩ | ⟨hg, s₀, cs, out, hi, hroom, hr⟩
  · exact ⟨False, (t.lawful False hw hn).reachable (t.init_inv False s₀ hi fun h => h.elim) hr⟩
  · obtain ⟨out', s', h1, h2, -⟩ := (t.lawful True hw hn).calls (t.getLawful hw hg) cs
      (fun c _ => by
        cases c with
        | op o => exact okTrue o
        | get => trivial
        | getMut => trivial) s₀ (t.init_inv True s₀ hi fun _ => hroom)
    rw [hr] at h1
    cases h1
    exact ⟨True, h2⟩

/-- **C63.** A container of any shape whose Arrays count elements (no `Associative`), in any state a
history of calls leads to: `size()` is the number of elements stored, and `push(l)` hands back exactly
the number of elements that exceed the capacity: none if everything fits, whatever the level of the
container that has the room. -/
theorem C63_push_exact (t : Stack K V) (hw : t.WF) (hc : t.Counting) (s : t.block.State)
    (hs : Reached t s) (l : List (K × V)) :
    t.block.size s = (t.elems s).length ∧
    ∃ out s', t.block.push s l = .ok (out, s') ∧
      (t.elems s' ++ out).Perm (t.elems s ++ l) ∧
      out.length = (t.elems s).length + l.length - t.block.capacity s ∧
      t.block.size s' = min ((t.elems s).length + l.length) (t.block.capacity s) := by
  obtain ⟨p, hi⟩ := hs.inv hw hc
  have hS := t.slots p hw hc
  have hC := t.core p hw
  have hb := hC.bounded s hi
  have hz := hS.size s hi
  obtain ⟨out, s', h1, h2, h3, h4⟩ := hC.push s l hi trivial
  have h5 := hS.pushExact s l out s' hi h1
  have h6 := hS.size s' h2
  have h7 := h4.length_eq
  simp only [List.length_append] at h7
  exact ⟨hz, out, s', h1, h4, by omega, by omega⟩

/-- **C63 (one element).** Pushing one element into such a container of positive capacity stores it: it
is never the element handed back. -/
theorem C63_push_one_stays (t : Stack K V) (hw : t.WF) (hc : t.Counting) (s : t.block.State)
    (hs : Reached t s) (hcap : 0 < t.block.capacity s) (x : K × V) :
    ∃ out s' kept, t.block.push s [x] = .ok (out, s') ∧
      (t.elems s').Perm (x :: kept) ∧ (kept ++ out).Perm (t.elems s) ∧
      (out.length = if (t.elems s).length < t.block.capacity s then 0 else 1) := by
  obtain ⟨p, hi⟩ := hs.inv hw hc
  have hS := t.slots p hw hc
  have hC := t.core p hw
  have hb := hC.bounded s hi
  have hz := hS.size s hi
  obtain ⟨out, s', h1, h2, h3, h4⟩ := hC.push s [x] hi trivial
  have h5 := hS.pushExact s [x] out s' hi h1
  obtain ⟨kept, k1, k2⟩ := hS.pushOne s x out s' hi hcap h1
  refine ⟨out, s', kept, h1, k1, k2, ?_⟩
  simp only [List.length_cons, List.length_nil] at h5
  split <;> omega

/-- **C64, as a user reads it:** `pop(n)` evicts exactly `n` elements, or all of them if there are
fewer. -/
def C64_full : Prop :=
  ∀ (t : Stack Nat Nat), t.WF → t.Counting → ∀ s, Reached t s → ∀ n out s',
    t.block.pop s n = .ok (out, s') → out.length = min n (t.elems s).length

/-- **C64 is false** for `n = 0`: `pop(0)` on an `Array` holding an element evicts it. -/
theorem C64_false : ¬ C64_full := by
  intro h
  have h' := h (.array (fun _ => 1) natSorter natSorter) trivial (fun _ => rfl)
    { capacity := 2, totalSize := 1, values := [(1, 10)] }
    (Or.inl ⟨Array.new 2, ⟨2, rfl⟩, [.push [(1, 10)]], [], by rfl⟩) 0 [(1, 10)]
    { capacity := 2, totalSize := 0, values := [] } (by rfl)
  exact absurd h' (by decide)

/-- **C64 (partial: `n > 0`).** On a container of any shape whose Arrays count elements, in any state a
history of calls leads to, `pop(n)` with `n > 0` evicts exactly `n` elements, or all of them if there
are fewer — even when the elements are spread over several levels or batches. -/
theorem C64_partial (t : Stack K V) (hw : t.WF) (hc : t.Counting) (s : t.block.State)
    (hs : Reached t s) (n : Nat) (hn : 0 < n) :
    ∃ out s', t.block.pop s n = .ok (out, s') ∧ (t.elems s' ++ out).Perm (t.elems s) ∧
      out.length = min n (t.elems s).length ∧
      t.block.size s' = t.block.size s - n := by
  obtain ⟨p, hi⟩ := hs.inv hw hc
  have hS := t.slots p hw hc
  obtain ⟨out, s', h1, h2, h3, h4, -⟩ := (t.lawful p hw (t.counting_noAssociative hc)).pop s n hi
  have h5 := t.popExact p hw hc s n out s' hi hn h1
  have h6 := hS.size s hi
  have h7 := hS.size s' h2
  have h8 := h4.length_eq
  rw [List.length_append] at h8
  exact ⟨out, s', h1, h4, h5, by omega⟩

/-! ## Non-vacuity -/

theorem deep_Counting : deep.Counting :=
  ⟨fun _ => rfl, ⟨fun i => by cases i <;> exact fun _ => rfl, fun _ => rfl⟩⟩

/-- The states of the deep stack of `StackProps` reached after pushing and updating elements. -/
example (s : deep.block.State) (out : List (Nat × Nat))
    (h : deep.block.calls deep.gets deepNew
      [.op (.push [(1, 10), (2, 20), (3, 30)]), .getMut 2 (· + 1), .op (.push [(4, 5)])] = .ok (out, s)) :
    ∃ out s', deep.block.pop s 3 = .ok (out, s') ∧ (deep.elems s' ++ out).Perm (deep.elems s) ∧
      out.length = min 3 (deep.elems s).length ∧ deep.block.size s' = deep.block.size s - 3 := by
  refine C64_partial deep deep_WF deep_Counting s (Or.inr ⟨deep_GetWF, deepNew, _, out, deepNew_init, ?_, h⟩)
    3 (by decide)
  refine ⟨Nat.zero_lt_two, trivial, ?_⟩
  intro x hx
  rcases List.mem_cons.1 hx with rfl | hx
  · exact ⟨Nat.one_pos, trivial, trivial⟩
  · rcases List.mem_cons.1 hx with rfl | hx
    · refine ⟨Nat.zero_lt_two, ?_, trivial⟩
      intro y _; trivial
    · exact absurd hx List.not_mem_nil

end ExactProps
end Byoc
