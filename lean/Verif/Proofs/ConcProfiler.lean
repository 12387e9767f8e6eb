import Verif.Model.ConcProfiler
import Verif.Proofs.Lock

/-! # Invariants of a `Profiler` shared by several threads -/

namespace Byoc.Prof

open Byoc.Seq (Container SCall SObs)
open Byoc.Lock (sum_set le_sum le_sum_two)

variable {K V S : Type}

/-! ## What a call counts for -/

/-- Keys a call looks up. -/
def lookups : SCall K V → Nat
  | .op (.contains _) => 1
  | .op (.take _) => 1
  | .op (.takeMultiple ks) => ks.length
  | .get _ => 1
  | .getMut _ => 1
  | _ => 0

/-- Keys it found. -/
def found : SObs K V → Nat
  | .obs (.bool b) => if b then 1 else 0
  | .obs (.opt o) => if o.isSome then 1 else 0
  | .obs (.keyed out _) => out.length
  | .cell o => if o.isSome then 1 else 0
  | _ => 0

/-- What the call `c`, which returned `r`, counts for in the statistic `f` (`pop` apart, which counts
sizes). -/
def counts : Field → SCall K V → SObs K V → Nat
  | .contains, .op (.contains _), _ => 1
  | .take, .op (.take _), _ => 1
  | .take, .op (.takeMultiple ks), _ => ks.length
  | .push, .op (.push l), _ => l.length
  | .flush, .op .flush, _ => 1
  | .flushIter, .op .flush, .obs (.many out) => out.length + 1
  | .get, .get _, _ => 1
  | .getMut, .getMut _, _ => 1
  | .hit, _, r => found r
  | .miss, c, r => lookups c - found r
  | _, _, _ => 0

/-- Sum over the calls executed. -/
def sumExecuted (f : Field) : List (PEv K V) → Nat
  | [] => 0
  | .executed _ c r :: l => counts f c r + sumExecuted f l
  | _ :: l => sumExecuted f l

/-- Sum over the calls that returned. -/
def sumReturned (f : Field) : List (PEv K V) → Nat
  | [] => 0
  | .returned _ c r :: l => counts f c r + sumReturned f l
  | _ :: l => sumReturned f l

theorem sumExecuted_append (f : Field) (l l' : List (PEv K V)) :
    sumExecuted f (l ++ l') = sumExecuted f l + sumExecuted f l' := by
  induction l with
  | nil => simp [sumExecuted]
  | cons e l ih => cases e <;> simp [sumExecuted, ih, Nat.add_assoc]

theorem sumReturned_append (f : Field) (l l' : List (PEv K V)) :
    sumReturned f (l ++ l') = sumReturned f l + sumReturned f l' := by
  induction l with
  | nil => simp [sumReturned]
  | cons e l ih => cases e <;> simp [sumReturned, ih, Nat.add_assoc]

/-! ## What the updates add up to -/

/-- What update `t` adds to `f`. -/
def Todo.adds (f : Field) : Todo → Nat
  | .add g n _ => if g = f then n else 0
  | _ => 0

def adds (f : Field) (ts : List Todo) : Nat := (ts.map (Todo.adds f)).sum

def Todo.isAdd : Todo → Bool
  | .add .. => true
  | _ => false

@[simp] theorem adds_nil (f : Field) : adds f [] = 0 := rfl
@[simp] theorem adds_cons (f : Field) (t ts) : adds f (t :: ts) = t.adds f + adds f ts := rfl

theorem adds_replicate (f g : Field) (n : Nat) :
    adds f (List.replicate n (.add g 1 0)) = if g = f then n else 0 := by
  simp [adds, Todo.adds]

theorem add_read (f g : Field) (st : Stats) (n sz : Nat) :
    (f.read (g.add st n sz)).count = (f.read st).count + (Todo.add g n sz).adds f := by
  cases f <;> cases g <;> simp [Field.read, Field.add, MethodStats.add, Todo.adds]

/-- Updates of a call that executed. -/
theorem todo_adds {C : Container K V} {c r s t} (h : C.exec c s = .ok (r, t)) (b a : List Nat)
    {f : Field} (hf : f ≠ .pop) : adds f (todo c r b a) ≤ counts f c r ∧
    (((todo c r b a).all Todo.isAdd) = true → adds f (todo c r b a) = counts f c r) := by
  cases c with
  | capacity => cases h; cases f <;> simp [todo, counts, found, lookups]
  | size => cases h; cases f <;> simp [todo, counts, found, lookups]
  | get k =>
    simp only [Container.exec] at h
    cases h1 : C.get s k with
    | panic => simp [h1] at h
    | ok x =>
      simp only [h1, Res.ok_bind, Res.pure_eq, Res.ok.injEq, Prod.mk.injEq] at h
      obtain ⟨rfl, rfl⟩ := h
      cases hx : x.1.isSome <;> cases f <;>
        simp [todo, counts, found, lookups, hitOrMiss, hx, Todo.adds, Todo.isAdd]
  | getMut k =>
    simp only [Container.exec] at h
    cases h1 : C.getMut s k with
    | panic => simp [h1] at h
    | ok x =>
      simp only [h1, Res.ok_bind, Res.pure_eq, Res.ok.injEq, Prod.mk.injEq] at h
      obtain ⟨rfl, rfl⟩ := h
      cases hx : x.1.isSome <;> cases f <;>
        simp [todo, counts, found, lookups, hitOrMiss, hx, Todo.adds, Todo.isAdd]
  | op o =>
    simp only [Container.exec] at h
    cases h1 : C.block.observe s o with
    | panic => simp [h1] at h
    | ok x =>
      simp only [h1, Res.ok_bind, Res.pure_eq, Res.ok.injEq, Prod.mk.injEq] at h
      obtain ⟨rfl, rfl⟩ := h
      cases o with
      | contains k =>
        simp only [Block.observe] at h1
        cases h2 : C.block.contains s k with
        | panic => simp [h2] at h1
        | ok y =>
          simp only [h2, Res.ok_bind, Res.pure_eq, Res.ok.injEq] at h1
          subst h1
          cases hy : y.1 <;> cases f <;>
            simp [todo, counts, found, lookups, hitOrMiss, hy, Todo.adds, Todo.isAdd]
      | take k =>
        simp only [Block.observe] at h1
        cases h2 : C.block.take s k with
        | panic => simp [h2] at h1
        | ok y =>
          simp only [h2, Res.ok_bind, Res.pure_eq, Res.ok.injEq] at h1
          subst h1
          cases hy : y.1.isSome <;> cases f <;>
            simp [todo, counts, found, lookups, hitOrMiss, hy, Todo.adds, Todo.isAdd]
      | takeMultiple ks =>
        simp only [Block.observe] at h1
        cases h2 : C.block.takeMultiple s ks with
        | panic => simp [h2] at h1
        | ok y =>
          simp only [h2, Res.ok_bind, Res.pure_eq, Res.ok.injEq] at h1
          subst h1
          simp only [todo]
          split <;> cases f <;> simp [counts, found, lookups, Todo.adds, Todo.isAdd]
      | pop n =>
        simp only [Block.observe] at h1
        cases h2 : C.block.pop s n with
        | panic => simp [h2] at h1
        | ok y =>
          simp only [h2, Res.ok_bind, Res.pure_eq, Res.ok.injEq] at h1
          subst h1
          simp only [todo]
          split <;> cases f <;> simp [counts, found, lookups, Todo.adds, Todo.isAdd] at hf ⊢
      | push l =>
        simp only [Block.observe] at h1
        cases h2 : C.block.push s l with
        | panic => simp [h2] at h1
        | ok y =>
          simp only [h2, Res.ok_bind, Res.pure_eq, Res.ok.injEq] at h1
          subst h1
          cases f <;> simp [todo, counts, found, lookups, Todo.adds, Todo.isAdd]
      | flush =>
        simp only [Block.observe] at h1
        cases h2 : C.block.flush s with
        | panic => simp [h2] at h1
        | ok y =>
          simp only [h2, Res.ok_bind, Res.pure_eq, Res.ok.injEq] at h1
          subst h1
          cases f <;> simp [todo, counts, found, lookups, Todo.adds, Todo.isAdd, adds_replicate]

/-! ## The invariant -/

/-- What the calls in progress will still add at most. -/
def Pc.low (f : Field) : Pc K V → Nat
  | .post c r _ _ => counts f c r
  | .todo _ _ ts => adds f ts
  | .held _ _ t ts => adds f (t :: ts)
  | _ => 0

/-- What they will add at least, the whole call if it is going to panic. -/
def Pc.high (f : Field) : Pc K V → Nat
  | .post c r _ _ => counts f c r
  | .todo c r ts => if ts.all Todo.isAdd then adds f ts else counts f c r
  | .held c r t ts => if (t :: ts).all Todo.isAdd then adds f (t :: ts) else counts f c r
  | .dead (some (c, r, _)) => counts f c r
  | _ => 0

/-- What the call in progress, or lost by a panic, counts for. -/
def Pc.cur (f : Field) : Pc K V → Nat
  | .post c r _ _ => counts f c r
  | .todo c r _ => counts f c r
  | .held c r _ _ => counts f c r
  | .dead (some (c, r, _)) => counts f c r
  | _ => 0

/-- Write guards. -/
def Pc.w : Pc K V → Nat
  | .held .. => 1
  | _ => 0

/-- Read guards. -/
def Pc.rd : Pc K V → Nat
  | .reading _ => 1
  | _ => 0

/-- The call of a thread was executed and its updates are part of what it counts for. -/
def Pc.Ok (C : Container K V) : Pc K V → Prop
  | .post c r _ _ => ∃ s t, C.exec c s = .ok (r, t)
  | .todo c r ts => ∀ f, f ≠ Field.pop → adds f ts ≤ counts f c r
  | .held c r t ts => t ≠ .underflow ∧ ∀ f, f ≠ Field.pop → adds f (t :: ts) ≤ counts f c r
  | _ => True

theorem Pc.high_le {C : Container K V} {p : Pc K V} (h : p.Ok C) {f : Field} (hf : f ≠ .pop) :
    p.high f ≤ p.cur f := by
  cases p with
  | todo c r ts => simp only [Pc.high, Pc.cur]; split <;> first | exact h f hf | exact Nat.le_refl _
  | held c r t ts => simp only [Pc.high, Pc.cur]; split <;> first | exact h.2 f hf | exact Nat.le_refl _
  | dead x => rcases x with _ | ⟨c, r, ts⟩ <;> exact Nat.le_refl _
  | _ => first | exact Nat.le_refl _ | exact Nat.zero_le _

structure PInv (C : Container K V) (l : List (PEv K V)) (s : PState K V C.block.State) : Prop where
  low : ∀ f, f ≠ Field.pop →
    (f.read s.stats).count + (s.threads.map (Pc.low f)).sum ≤ sumExecuted f l
  high : ∀ f, f ≠ Field.pop →
    sumExecuted f l ≤ (f.read s.stats).count + (s.threads.map (Pc.high f)).sum
  cur : ∀ f, f ≠ Field.pop →
    sumExecuted f l = sumReturned f l + (s.threads.map (Pc.cur f)).sum
  w : (s.threads.map Pc.w).sum = s.writer.toNat
  rd : (s.threads.map Pc.rd).sum = s.readers
  excl : s.writer = true → s.readers = 0
  ok : ∀ p ∈ s.threads, p.Ok C

theorem sum_rep {α : Type} (f : α → Nat) (a : α) (n : Nat) (h : f a = 0) :
    ((List.replicate n a).map f).sum = 0 := by
  simp [List.map_replicate, h]

theorem new_inv (C : Container K V) (c : C.block.State) (n : Nat) : PInv C [] (.new c n) := by
  have z : ∀ f : Field, (f.read ({} : Stats)).count = 0 := by intro f; cases f <;> rfl
  refine ⟨?_, ?_, ?_, ?_, ?_, ?_, ?_⟩
  · intro f _; simp [PState.new, z, sum_rep, Pc.low]
  · intro f _; simp [PState.new, sumExecuted]
  · intro f _; simp [PState.new, Pc.cur, sumExecuted, sumReturned]
  · simp [PState.new, Pc.w]
  · simp [PState.new, Pc.rd]
  · simp [PState.new]
  · intro p hp; simp only [PState.new] at hp; rw [(List.mem_replicate.1 hp).2]; trivial

theorem PInv.change {C : Container K V} {l : List (PEv K V)} {s s' : PState K V C.block.State}
    {i : Nat} {p q : Pc K V} {e : PEv K V} (hi : PInv C l s) (hp : s.threads[i]? = some p)
    (ht : s'.threads = s.threads.set i q)
    (h1 : ∀ f, f ≠ Field.pop → (f.read s'.stats).count + q.low f ≤
      (f.read s.stats).count + p.low f + sumExecuted f [e])
    (h2 : ∀ f, f ≠ Field.pop → sumExecuted f [e] + (f.read s.stats).count + p.high f ≤
      (f.read s'.stats).count + q.high f)
    (h3 : ∀ f, f ≠ Field.pop → sumExecuted f [e] + p.cur f = sumReturned f [e] + q.cur f)
    (h4 : s'.writer.toNat + p.w = s.writer.toNat + q.w)
    (h5 : s'.readers + p.rd = s.readers + q.rd)
    (h6 : s'.writer = true → s'.readers = 0)
    (h7 : q.Ok C) : PInv C (l ++ [e]) s' := by
  refine ⟨?_, ?_, ?_, ?_, ?_, h6, ?_⟩
  · intro f hf
    have a := sum_set (Pc.low f) s.threads i p q hp
    have b := hi.low f hf
    have c := h1 f hf
    rw [ht, sumExecuted_append]; omega
  · intro f hf
    have a := sum_set (Pc.high f) s.threads i p q hp
    have b := hi.high f hf
    have c := h2 f hf
    rw [ht, sumExecuted_append]; omega
  · intro f hf
    have a := sum_set (Pc.cur f) s.threads i p q hp
    have b := hi.cur f hf
    have c := h3 f hf
    rw [ht, sumExecuted_append, sumReturned_append]; omega
  · have a := sum_set Pc.w s.threads i p q hp
    have b := hi.w
    rw [ht]; omega
  · have a := sum_set Pc.rd s.threads i p q hp
    have b := hi.rd
    rw [ht]; omega
  · rw [ht]
    intro x hx
    rcases List.mem_or_eq_of_mem_set hx with hx | rfl
    · exact hi.ok x hx
    · exact h7

theorem step_inv {C : Container K V} {l : List (PEv K V)} {s s' : PState K V C.block.State} {i a e}
    (hi : PInv C l s) (hs : pstep C s i a = some (s', e)) : PInv C (l ++ [e]) s' := by
  have plain : ∀ {p q : Pc K V} {e : PEv K V} {t : PState K V C.block.State}, s.threads[i]? = some p →
      t.threads = s.threads.set i q → t.stats = s.stats → t.readers = s.readers → t.writer = s.writer →
      (∀ f, p.low f = 0 ∧ q.low f = 0 ∧ p.high f = 0 ∧ q.high f = 0 ∧ p.cur f = 0 ∧ q.cur f = 0) →
      p.w = q.w → p.rd = q.rd → (∀ f, sumExecuted f [e] = 0 ∧ sumReturned f [e] = 0) → q.Ok C →
      PInv C (l ++ [e]) t := by
    intro p q e t hp ht h1 h2 h3 h4 h5 h6 h7 h8
    refine hi.change hp ht ?_ ?_ ?_ ?_ ?_ ?_ h8
    · intro f _; rw [h1, (h4 f).1, (h4 f).2.1, (h7 f).1]
    · intro f _; rw [h1, (h4 f).2.2.1, (h4 f).2.2.2.1, (h7 f).1]; omega
    · intro f _; rw [(h4 f).2.2.2.2.1, (h4 f).2.2.2.2.2, (h7 f).1, (h7 f).2]
    · rw [h3, h5]
    · rw [h2, h6]
    · rw [h2, h3]; exact hi.excl
  unfold pstep at hs
  split at hs
  case _ c hp =>
    cases hs
    exact plain hp rfl rfl rfl rfl (fun _ => ⟨rfl, rfl, rfl, rfl, rfl, rfl⟩) rfl rfl
      (fun _ => ⟨rfl, rfl⟩) trivial
  case _ f hp =>
    split at hs
    · cases hs
      exact plain hp rfl rfl rfl rfl (fun _ => ⟨rfl, rfl, rfl, rfl, rfl, rfl⟩) rfl rfl
        (fun _ => ⟨rfl, rfl⟩) trivial
    · rename_i hc
      cases hs
      refine hi.change hp rfl ?_ ?_ ?_ rfl ?_ ?_ trivial
      · intro f _; simp [Pc.low, PState.setPc, sumExecuted]
      · intro f _; simp [Pc.high, PState.setPc, sumExecuted]
      · intro f _; simp [Pc.cur, sumExecuted, sumReturned]
      · simp [Pc.rd, PState.setPc]
      · intro h; simp [PState.setPc] at h; simp [h] at hc
  case _ f hp =>
    cases hs
    have h1 := le_sum Pc.rd s.threads _ (List.mem_of_getElem? hp)
    have h2 := hi.rd
    refine hi.change hp rfl ?_ ?_ ?_ rfl ?_ ?_ trivial
    · intro f _; simp [Pc.low, PState.setPc, sumExecuted]
    · intro f _; simp [Pc.high, PState.setPc, sumExecuted]
    · intro f _; simp [Pc.cur, sumExecuted, sumReturned]
    · simp [Pc.rd, PState.setPc] at h1 ⊢; omega
    · intro h; simp [PState.setPc] at h ⊢; simp [hi.excl h]
  case _ c b hp =>
    split at hs
    · cases hs
      exact plain hp rfl rfl rfl rfl (fun _ => ⟨rfl, rfl, rfl, rfl, rfl, rfl⟩) rfl rfl
        (fun _ => ⟨rfl, rfl⟩) trivial
    · split at hs
      · cases hs
        exact plain hp rfl rfl rfl rfl (fun _ => ⟨rfl, rfl, rfl, rfl, rfl, rfl⟩) rfl rfl
          (fun _ => ⟨rfl, rfl⟩) trivial
      · rename_i r t he
        cases hs
        refine hi.change hp rfl ?_ ?_ ?_ rfl rfl hi.excl ⟨_, _, he⟩
        · intro f _; simp [Pc.low, PState.setPc, sumExecuted]
        · intro f _; simp [Pc.high, PState.setPc, sumExecuted]; omega
        · intro f _; simp [Pc.cur, sumExecuted, sumReturned]
  case _ c r b a hp =>
    have hok := hi.ok _ (List.mem_of_getElem? hp)
    split at hs
    · cases hs
      refine hi.change hp rfl ?_ ?_ ?_ rfl rfl hi.excl hok
      · intro f _; simp [Pc.low, PState.setPc]
      · intro f _; simp [Pc.high, PState.setPc, sumExecuted]
      · intro f _; simp [Pc.cur, sumExecuted, sumReturned]
    · cases hs
      obtain ⟨s0, t0, hx⟩ := hok
      refine hi.change hp rfl ?_ ?_ ?_ rfl rfl hi.excl fun f hf => (todo_adds hx b a hf).1
      · intro f hf
        have := (todo_adds hx b a hf).1
        simp [Pc.low, PState.setPc, sumExecuted]; omega
      · intro f hf
        have := (todo_adds hx b a hf).2
        simp only [Pc.high, PState.setPc, sumExecuted]
        split
        · rename_i h; rw [this h]; omega
        · omega
      · intro f _; simp [Pc.cur, sumExecuted, sumReturned]
  case _ c r hp =>
    cases hs
    refine hi.change hp rfl ?_ ?_ ?_ rfl rfl hi.excl trivial
    · intro f _; simp [Pc.low, PState.setPc]
    · intro f _; simp [Pc.high, PState.setPc, sumExecuted]
    · intro f _; simp [Pc.cur, sumExecuted, sumReturned]
  case _ c r t ts hp =>
    have hok := hi.ok _ (List.mem_of_getElem? hp)
    split at hs
    · cases hs
      refine hi.change hp rfl ?_ ?_ ?_ rfl rfl hi.excl trivial
      · intro f _; simp [Pc.low, PState.setPc]; omega
      · intro f hf
        have := Pc.high_le hok hf
        simp only [Pc.high, Pc.cur, PState.setPc, sumExecuted] at this ⊢; omega
      · intro f _; simp [Pc.cur, sumExecuted, sumReturned]
    · rename_i hc
      simp only [not_or] at hc
      cases hs
      refine hi.change hp rfl ?_ ?_ ?_ ?_ rfl ?_ ⟨hc.1, hok⟩
      · intro f _; simp [Pc.low, PState.setPc]
      · intro f _; simp [Pc.high, PState.setPc, sumExecuted]
      · intro f _; simp [Pc.cur, sumExecuted, sumReturned]
      · have := hc.2.2.1
        simp [Pc.w, PState.setPc, this]
      · intro _; simpa [PState.setPc] using hc.2.2.2
  case _ c r t ts hp =>
    have hok := hi.ok _ (List.mem_of_getElem? hp)
    have hw : s.writer = true := by
      have h1 := le_sum Pc.w s.threads _ (List.mem_of_getElem? hp)
      have h2 := hi.w
      cases hb : s.writer
      · rw [hb] at h2; simp [Pc.w] at h1 h2; omega
      · rfl
    split at hs
    · rename_i f n sz
      cases hs
      refine hi.change hp rfl ?_ ?_ ?_ ?_ rfl ?_ ?_
      · intro g _
        simp only [PState.setPc, add_read, Pc.low, adds_cons, sumExecuted]; omega
      · intro g hg
        simp only [PState.setPc, add_read, Pc.high, adds_cons, sumExecuted, List.all_cons, Todo.isAdd,
          Bool.true_and]
        split <;> omega
      · intro f _; simp [Pc.cur, sumExecuted, sumReturned]
      · simp [Pc.w, PState.setPc, hw]
      · intro h; simp [PState.setPc] at h
      · intro g hg
        have := hok.2 g hg
        rw [adds_cons] at this; omega
    · cases hs
      refine hi.change hp rfl ?_ ?_ ?_ ?_ rfl ?_ trivial
      · intro f _; simp [Pc.low, PState.setPc]; omega
      · intro f hf
        have := Pc.high_le hok hf
        simp only [Pc.high, Pc.cur, PState.setPc, sumExecuted] at this ⊢; omega
      · intro f _; simp [Pc.cur, sumExecuted, sumReturned]
      · simp [Pc.w, PState.setPc, hw]
      · intro h; simp [PState.setPc] at h
  case _ => cases hs

theorem PRun.inv {C : Container K V} {c : C.block.State} {n : Nat} {l : List (PEv K V)}
    {s : PState K V C.block.State} (h : PRun C (.new c n) l s) : PInv C l s := by
  induction h with
  | nil => exact new_inv C c n
  | snoc _ hs ih => exact step_inv ih hs

theorem PRun.trans {C : Container K V} {s0 s1 s2 : PState K V C.block.State} {l l' : List (PEv K V)}
    (h : PRun C s0 l s1) (h' : PRun C s1 l' s2) : PRun C s0 (l ++ l') s2 := by
  induction h' with
  | nil => simpa using h
  | snoc _ hs ih => rw [← List.append_assoc]; exact ih.snoc hs

/-! ## One call with nobody else -/

theorem set_same {α : Type} {l : List α} {i : Nat} {a : α} (h : l[i]? = some a) : l.set i a = l := by
  obtain ⟨hi, rfl⟩ := List.getElem?_eq_some_iff.1 h
  simp

/-- Perform updates. -/
def applyAll (st : Stats) : List Todo → Stats
  | [] => st
  | .add f n sz :: ts => applyAll (f.add st n sz) ts
  | _ :: ts => applyAll st ts

/-- Updates of a thread that finds no guard held. -/
theorem run_todo {C : Container K V} {i : Nat} {c : SCall K V} {r : SObs K V} : ∀ (ts : List Todo)
    (s : PState K V C.block.State), ts.all Todo.isAdd = true → s.readers = 0 → s.writer = false →
    s.poison = false → s.threads[i]? = some (.todo c r ts) →
    ∃ l, PRun C s (l ++ [.returned i c r])
      ({ s with stats := applyAll s.stats ts }.setPc i .idle) := by
  intro ts
  induction ts with
  | nil =>
    intro s _ h1 h2 h3 hp
    refine ⟨[], .snoc (i := i) (a := .go) .nil ?_⟩
    simp [pstep, hp, applyAll]
  | cons t ts ih =>
    intro s ha h1 h2 h3 hp
    have hlt : i < s.threads.length := by
      by_contra hc
      rw [List.getElem?_eq_none (by omega)] at hp; cases hp
    cases t with
    | add f n sz =>
      have s1 : pstep C s i .go = some ({ s with writer := true }.setPc i (.held c r (.add f n sz) ts), .silent i) := by
        simp [pstep, hp, h1, h2, h3]
      have s2 : pstep C ({ s with writer := true }.setPc i (.held c r (.add f n sz) ts)) i .go =
          some ({ s with stats := f.add s.stats n sz }.setPc i (.todo c r ts), .silent i) := by
        simp [pstep, PState.setPc, hlt, h2]
      obtain ⟨l, hl⟩ := ih ({ s with stats := f.add s.stats n sz }.setPc i (.todo c r ts))
        (by simpa [Todo.isAdd] using ha) h1 h2 h3 (by simp [PState.setPc, hlt])
      refine ⟨[.silent i, .silent i] ++ l, ?_⟩
      have := ((PRun.nil.snoc s1).snoc s2).trans hl
      simpa [PState.setPc, applyAll] using this
    | _ => simp [Todo.isAdd] at ha

theorem lt_of_get {α : Type} {l : List α} {i : Nat} {a : α} (h : l[i]? = some a) : i < l.length := by
  by_contra hc
  rw [List.getElem?_eq_none (by omega)] at h; cases h

/-- Reading the sizes before. -/
theorem run_pre {C : Container K V} {i : Nat} {c : SCall K V} (n : Nat) :
    ∀ (b : List Nat) (s : PState K V C.block.State), s.threads[i]? = some (.pre c b) →
    b.length + n = reads c →
    ∃ l, PRun C s l (s.setPc i (.pre c (b ++ List.replicate n (C.block.size s.cont)))) := by
  induction n with
  | zero =>
    intro b s hp _
    refine ⟨[], ?_⟩
    have : s.setPc i (.pre c b) = s := by simp [PState.setPc, set_same hp]
    simpa [this] using PRun.nil
  | succ n ih =>
    intro b s hp hn
    have hlt := lt_of_get hp
    have s1 : pstep C s i .go = some (s.setPc i (.pre c (b ++ [C.block.size s.cont])), .silent i) := by
      simp [pstep, hp, show b.length < reads c by omega]
    obtain ⟨l, hl⟩ := ih (b ++ [C.block.size s.cont]) (s.setPc i (.pre c (b ++ [C.block.size s.cont])))
      (by simp [PState.setPc, hlt]) (by simp; omega)
    refine ⟨[.silent i] ++ l, ?_⟩
    have := (PRun.nil.snoc s1).trans hl
    simpa [PState.setPc, List.replicate_succ] using this

/-- Reading the sizes after. -/
theorem run_post {C : Container K V} {i : Nat} {c : SCall K V} {r : SObs K V} {b : List Nat} (n : Nat) :
    ∀ (a : List Nat) (s : PState K V C.block.State), s.threads[i]? = some (.post c r b a) →
    a.length + n = reads c →
    ∃ l, PRun C s l (s.setPc i (.post c r b (a ++ List.replicate n (C.block.size s.cont)))) := by
  induction n with
  | zero =>
    intro a s hp _
    refine ⟨[], ?_⟩
    have : s.setPc i (.post c r b a) = s := by simp [PState.setPc, set_same hp]
    simpa [this] using PRun.nil
  | succ n ih =>
    intro a s hp hn
    have hlt := lt_of_get hp
    have s1 : pstep C s i .go = some (s.setPc i (.post c r b (a ++ [C.block.size s.cont])), .silent i) := by
      simp [pstep, hp, show a.length < reads c by omega]
    obtain ⟨l, hl⟩ := ih (a ++ [C.block.size s.cont]) (s.setPc i (.post c r b (a ++ [C.block.size s.cont])))
      (by simp [PState.setPc, hlt]) (by simp; omega)
    refine ⟨[.silent i] ++ l, ?_⟩
    have := (PRun.nil.snoc s1).trans hl
    simpa [PState.setPc, List.replicate_succ] using this

/-- The updates of a call with nobody else. -/
def todoAlone (C : Container K V) (c : SCall K V) (r : SObs K V) (s t : C.block.State) : List Todo :=
  todo c r (List.replicate (reads c) (C.block.size s)) (List.replicate (reads c) (C.block.size t))

/-- A whole call with nobody else. -/
theorem run_call {C : Container K V} {i : Nat} {c : SCall K V} {r : SObs K V}
    (s : PState K V C.block.State) (t : C.block.State) (hp : s.threads[i]? = some .idle)
    (h1 : s.readers = 0) (h2 : s.writer = false) (h3 : s.poison = false)
    (he : C.exec c s.cont = .ok (r, t)) (ha : (todoAlone C c r s.cont t).all Todo.isAdd = true) :
    ∃ l, PRun C s (l ++ [.returned i c r])
      { s with cont := t, stats := applyAll s.stats (todoAlone C c r s.cont t) } := by
  have hlt := lt_of_get hp
  have a1 : pstep C s i (.call c) = some (s.setPc i (.pre c []), .called i c) := by simp [pstep, hp]
  obtain ⟨l1, r1⟩ := run_pre (C := C) (i := i) (c := c) (reads c) [] (s.setPc i (.pre c []))
    (by simp [PState.setPc, hlt]) (by simp)
  let b := List.replicate (reads c) (C.block.size s.cont)
  have r1' : PRun C (s.setPc i (.pre c [])) l1 (s.setPc i (.pre c b)) := by
    simpa [PState.setPc] using r1
  have a2 : pstep C (s.setPc i (.pre c b)) i .go =
      some ({ s with cont := t }.setPc i (.post c r b []), .executed i c r) := by
    simp [pstep, PState.setPc, hlt, b, he]
  obtain ⟨l2, r2⟩ := run_post (C := C) (i := i) (c := c) (r := r) (b := b) (reads c) []
    ({ s with cont := t }.setPc i (.post c r b [])) (by simp [PState.setPc, hlt]) (by simp)
  let a := List.replicate (reads c) (C.block.size t)
  have r2' : PRun C ({ s with cont := t }.setPc i (.post c r b [])) l2
      ({ s with cont := t }.setPc i (.post c r b a)) := by
    simpa [PState.setPc] using r2
  have a3 : pstep C ({ s with cont := t }.setPc i (.post c r b a)) i .go =
      some ({ s with cont := t }.setPc i (.todo c r (todo c r b a)), .silent i) := by
    simp [pstep, PState.setPc, hlt, a]
  obtain ⟨l3, r3⟩ := run_todo (C := C) (i := i) (c := c) (r := r) (todo c r b a)
    ({ s with cont := t }.setPc i (.todo c r (todo c r b a))) ha h1 h2 h3 (by simp [PState.setPc, hlt])
  have := (((((PRun.nil.snoc a1).trans r1').snoc a2).trans r2').snoc a3).trans r3
  refine ⟨([.called i c] ++ l1 ++ [.executed i c r]) ++ l2 ++ [.silent i] ++ l3, ?_⟩
  simpa [PState.setPc, set_same hp, todoAlone, a, b] using this

end Byoc.Prof
