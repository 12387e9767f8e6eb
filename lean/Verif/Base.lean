import Mathlib.Order.Defs.LinearOrder
import Mathlib.Data.List.Perm.Basic

/-!
# Base: results with panics, sizes, multiset reasoning

Nothing here models ByoC code; these are the data types the model is written with.
-/

namespace Byoc

/-- Outcome of a Rust call: it returns a value or it panics (`panic!`, failed `assert!`,
`unwrap` on `None`, out of bounds index, arithmetic underflow). -/
inductive Res (α : Type u) where
  | ok (a : α)
  | panic
deriving DecidableEq, Repr

namespace Res

protected def bind {α β} (x : Res α) (f : α → Res β) : Res β :=
  match x with
  | .ok a => f a
  | .panic => .panic

instance : Monad Res where
  pure := Res.ok
  bind := Res.bind

@[simp] theorem ok_bind {α β} (a : α) (f : α → Res β) : (Res.ok a >>= f) = f a := rfl
@[simp] theorem panic_bind {α β} (f : α → Res β) : ((Res.panic : Res α) >>= f) = Res.panic := rfl
@[simp] theorem pure_eq {α} (a : α) : (pure a : Res α) = Res.ok a := rfl

instance : LawfulMonad Res := LawfulMonad.mk'
  (id_map := by intro α x; cases x <;> rfl)
  (pure_bind := by intros; rfl)
  (bind_assoc := by intro α β γ x f g; cases x <;> rfl)

/-- Checked subtraction on `usize`: underflow panics (debug profile). -/
def sub (a b : Nat) : Res Nat := if b ≤ a then .ok (a - b) else .panic

theorem sub_ok {a b : Nat} (h : b ≤ a) : sub a b = .ok (a - b) := by simp [sub, h]

/-- `Option::unwrap`/`expect`. -/
def unwrap {α} : Option α → Res α
  | some a => .ok a
  | none => .panic

@[simp] theorem unwrap_some {α} (a : α) : unwrap (some a) = .ok a := rfl

end Res

/-- `iter().map(size).sum()`. -/
def total {E : Type u} (sz : E → Nat) (l : List E) : Nat := (l.map sz).sum

@[simp] theorem total_nil {E : Type u} (sz : E → Nat) : total sz [] = 0 := rfl
@[simp] theorem total_cons {E : Type u} (sz : E → Nat) (e : E) (l) :
    total sz (e :: l) = sz e + total sz l := by simp [total]
@[simp] theorem total_append {E : Type u} (sz : E → Nat) (l₁ l₂ : List E) :
    total sz (l₁ ++ l₂) = total sz l₁ + total sz l₂ := by simp [total]

theorem total_perm {E : Type u} (sz : E → Nat) {l₁ l₂ : List E} (h : l₁.Perm l₂) :
    total sz l₁ = total sz l₂ := by
  simpa [total] using (h.map sz).sum_nat

theorem total_reverse {E : Type u} (sz : E → Nat) (l : List E) :
    total sz l.reverse = total sz l := total_perm sz (List.reverse_perm l)

/-- A sorting routine: any function that permutes its input. -/
structure Sorter (E : Type u) where
  run : List E → List E
  perm : ∀ l, (run l).Perm l

/-- Use counts to prove a permutation: give the counting argument for every element. -/
theorem perm_of_count {E : Type u} {l₁ l₂ : List E}
    (h : ∀ (_ : DecidableEq E) (a : E), l₁.count a = l₂.count a) : l₁.Perm l₂ := by
  classical
  exact List.perm_iff_count.2 fun a => h _ a

theorem Perm.count_eq' {E : Type u} (_ : DecidableEq E) {l₁ l₂ : List E} (h : l₁.Perm l₂) (a : E) :
    l₁.count a = l₂.count a := h.count_eq a

/-- `perms [h₁, h₂, …]` proves a permutation goal built from `++` and `::` from permutation
hypotheses `hᵢ` by comparing, for an arbitrary element, the counts on both sides. -/
syntax "perms" "[" term,* "]" : tactic
macro_rules
  | `(tactic| perms []) =>
    `(tactic| (apply perm_of_count; intro inst a;
               simp only [List.count_append, List.count_cons, List.count_nil] at *;
               omega))
  | `(tactic| perms [$hs,*]) => do
    let hs := hs.getElems
    `(tactic| (apply perm_of_count; intro inst a;
               $[have := Perm.count_eq' inst $hs a];*
               simp only [List.count_append, List.count_cons, List.count_nil] at *;
               omega))

theorem subperm_of_count {E : Type u} {l₁ l₂ : List E}
    (h : ∀ (_ : DecidableEq E) (a : E), l₁.count a ≤ l₂.count a) : l₁.Subperm l₂ := by
  classical
  exact List.subperm_ext_iff.2 fun a _ => h _ a

theorem Subperm.count_le' {E : Type u} (_ : DecidableEq E) {l₁ l₂ : List E} (h : l₁.Subperm l₂) (a : E) :
    l₁.count a ≤ l₂.count a := h.count_le a

/-- `subperms [h₁, …] [p₁, …]` proves a sub-multiset goal from sub-multiset hypotheses `hᵢ` and
permutation hypotheses `pᵢ`. -/
syntax "subperms" "[" term,* "]" "[" term,* "]" : tactic
macro_rules
  | `(tactic| subperms [$hs,*] []) => do
    let hs := hs.getElems
    `(tactic| (apply subperm_of_count; intro inst a;
               $[have := Subperm.count_le' inst $hs a];*
               simp only [List.count_append, List.count_cons, List.count_nil] at *;
               omega))
  | `(tactic| subperms [$hs,*] [$ps,*]) => do
    let hs := hs.getElems
    let ps := ps.getElems
    `(tactic| (apply subperm_of_count; intro inst a;
               $[have := Subperm.count_le' inst $hs a];*
               $[have := Perm.count_eq' inst $ps a];*
               simp only [List.count_append, List.count_cons, List.count_nil] at *;
               omega))

/-- Swap of two lists in a permutation goal, etc. -/
theorem perm_comm4 {E : Type u} (a b c : List E) : (a ++ (b ++ c)).Perm (b ++ (a ++ c)) := by
  rw [← List.append_assoc, ← List.append_assoc]
  exact List.perm_append_comm.append_right c

end Byoc
