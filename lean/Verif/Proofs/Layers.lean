import Verif.Model.Layers
import Verif.Proofs.PopOk
import Mathlib.Data.List.Nodup

/-! # Which sets of a layered associative container can hold something -/

namespace Byoc
namespace Layers

variable {K V : Type} [LinearOrder K] (srt srtS : Sorter (K × V)) (c : Nat)

theorem sum_rep (n a : Nat) : (List.replicate n a).sum = n * a := by
  induction n with
  | zero => simp
  | succ n ih => rw [List.replicate_succ, List.sum_cons, ih, Nat.succ_mul, Nat.add_comm]

/-- The sets a key goes to, outermost layer first. -/
def path (ls : List (Nat × (K → Nat))) (k : K) : List Nat := ls.map fun p => p.2 k % p.1

/-- Product of the numbers of sets. -/
def sets (ls : List (Nat × (K → Nat))) : Nat := (ls.map Prod.fst).prod

omit [LinearOrder K] in
theorem sets_pos (ls : List (Nat × (K → Nat))) (hpos : ∀ p ∈ ls, 0 < p.1) : 0 < sets ls := by
  induction ls with
  | nil => exact Nat.one_pos
  | cons p ls ih =>
    unfold sets at ih ⊢
    rw [List.map_cons, List.prod_cons]
    exact Nat.mul_pos (hpos p (by simp)) (ih fun q hq => hpos q (by simp [hq]))

/-- Invariant: valid, well placed, every Array has capacity `c`. -/
def Inv : (ls : List (Nat × (K → Nat))) → (stack srt srtS ls).block.State → Prop
  | [], s => Array.Inv (fun _ => 1) s ∧ Array.capacity s = c
  | (n, h) :: ls, s => Associative.Inv h (Inv ls) (stack srt srtS ls).elems s ∧
      (stack srt srtS ((n, h) :: ls)).block.capacity s = n * (sets ls * c)

theorem core : ∀ ls, Core (stack srt srtS ls).block (Inv srt srtS c ls) (stack srt srtS ls).elems
    (fun _ => True)
  | [] => (Array.lawful (fun _ => 1) srt srtS).toCore.withCapacity (fun n => n = c)
  | (n, h) :: ls => (associative_core (hash := h) (core ls) (fun _ _ _ => trivial)).withCapacity
      (fun m => m = n * (sets ls * c))

theorem popOk : ∀ ls, PopOk (stack srt srtS ls).block (Inv srt srtS c ls) (stack srt srtS ls).elems
  | [] => (Array.lawful (fun _ => 1) srt srtS).popOk.withCapacity (fun n => n = c)
  | (n, h) :: ls => (associative_popOk (hash := h) (core srt srtS c ls) (popOk ls)).withCapacity
      (fun m => m = n * (sets ls * c))

theorem capacity_eq (ls : List (Nat × (K → Nat))) (s) (h : Inv srt srtS c ls s) :
    (stack srt srtS ls).block.capacity s = sets ls * c := by
  cases ls with
  | nil =>
    change Array.capacity s = _
    rw [show Array.capacity s = c from h.2]
    simp [sets]
  | cons p ls =>
    obtain ⟨n, hsh⟩ := p
    rw [h.2]; simp [sets, Nat.mul_assoc]

theorem size_eq : ∀ (ls : List (Nat × (K → Nat))) s, Inv srt srtS c ls s →
    (stack srt srtS ls).block.size s = ((stack srt srtS ls).elems s).length := by
  intro ls
  induction ls with
  | nil =>
    intro (s : Array K V) h
    have := h.1.1
    rw [total_one] at this
    exact this
  | cons p ls ih =>
    obtain ⟨n, hsh⟩ := p
    intro (s : List (stack srt srtS ls).block.State) h
    have hi : ∀ x ∈ s, Inv srt srtS c ls x := h.1.2.inv
    change (s.map (stack srt srtS ls).block.size).sum = (s.flatMap (stack srt srtS ls).elems).length
    clear h
    induction s with
    | nil => rfl
    | cons x s ihs =>
      have := ihs (fun y hy => hi y (by simp [hy]))
      have := ih x (hi x (by simp))
      simp only [List.map_cons, List.sum_cons, List.flatMap_cons, List.length_append]
      omega

theorem length_eq {n : Nat} {hsh : K → Nat} {ls : List (Nat × (K → Nat))}
    (hpos : ∀ p ∈ ls, 0 < p.1) (hc : 0 < c) (s : List (stack srt srtS ls).block.State)
    (h : Inv srt srtS c ((n, hsh) :: ls) s) : s.length = n := by
  have hi : ∀ x ∈ s, Inv srt srtS c ls x := h.1.2.inv
  have h2 : (s.map (stack srt srtS ls).block.capacity).sum = n * (sets ls * c) := h.2
  have h3 : s.map (stack srt srtS ls).block.capacity = List.replicate s.length (sets ls * c) :=
    List.eq_replicate_iff.2 ⟨by simp, fun b hb => by
      obtain ⟨x, hx, rfl⟩ := List.mem_map.1 hb
      exact capacity_eq srt srtS c ls x (hi x hx)⟩
  rw [h3, sum_rep] at h2
  refine Nat.eq_of_mul_eq_mul_right (Nat.mul_pos ?_ hc) h2
  exact sets_pos ls hpos

theorem new_inv : ∀ (ls : List (Nat × (K → Nat))), (∀ p ∈ ls, 0 < p.1) →
    Inv srt srtS c ls (new srt srtS c ls) ∧ (stack srt srtS ls).elems (new srt srtS c ls) = [] := by
  intro ls
  induction ls with
  | nil => intro _; exact ⟨⟨Array.new_inv _ c, rfl⟩, rfl⟩
  | cons p ls ih =>
    obtain ⟨n, hsh⟩ := p
    intro hp
    obtain ⟨h1, h2⟩ := ih fun p hm => hp p (by simp [hm])
    have hn : 0 < n := hp (n, hsh) (by simp)
    refine ⟨⟨⟨by simpa [new] using hn, ?_⟩, ?_⟩, ?_⟩
    · intro i x hx
      have hx' : (List.replicate n (new srt srtS c ls))[i]? = some x := hx
      have := List.eq_of_mem_replicate (List.mem_of_getElem? hx')
      subst this
      exact ⟨h1, by rw [h2]; simp⟩
    · change ((List.replicate n (new srt srtS c ls)).map (stack srt srtS ls).block.capacity).sum = _
      rw [List.map_replicate, sum_rep, capacity_eq srt srtS c ls _ h1]
    · exact List.flatMap_eq_nil_iff.2 fun x hx => by rw [List.eq_of_mem_replicate hx, h2]

/-- The elements of a container with a given path. -/
abbrev On (ls : List (Nat × (K → Nat))) (p : List Nat) (e : K × V) : Bool := path ls e.1 == p

/-- No more than `c` elements share a path. -/
theorem count_le (hc : 0 < c) : ∀ (ls : List (Nat × (K → Nat))), (∀ p ∈ ls, 0 < p.1) →
    ∀ s, Inv srt srtS c ls s → ∀ p, ((stack srt srtS ls).elems s).countP (On ls p) ≤ c := by
  intro ls
  induction ls with
  | nil =>
    intro _ (s : Array K V) h p
    have h1 := h.1.1
    have h2 := h.1.2
    rw [total_one] at h1
    have h3 : s.capacity = c := h.2
    calc s.values.countP (On [] p) ≤ s.values.length := List.countP_le_length
      _ ≤ c := by omega
  | cons q ls ih =>
    obtain ⟨n, hsh⟩ := q
    intro hp (s : List (stack srt srtS ls).block.State) h p
    have hp' : ∀ q ∈ ls, 0 < q.1 := fun q hq => hp q (by simp [hq])
    have hl := length_eq srt srtS c hp' hc s h
    have hr := h.1.2
    rw [hl] at hr
    have key : ∀ (s : List (stack srt srtS ls).block.State) (j : Nat),
        Associative.Routed hsh n (Inv srt srtS c ls) (stack srt srtS ls).elems j s →
        (s.flatMap (stack srt srtS ls).elems).countP (On ((n, hsh) :: ls) p) ≤
          if p.head?.all (j ≤ ·) then c else 0 := by
      intro s
      induction s with
      | nil => intro j _; simp
      | cons x s ihs =>
        intro j hr
        rw [Associative.routed_cons] at hr
        have h1 := ihs (j + 1) hr.2
        rw [List.flatMap_cons, List.countP_append]
        have h2 : ((stack srt srtS ls).elems x).countP (On ((n, hsh) :: ls) p) ≤
            if p.head? = some j then c else 0 := by
          split
          · next hj =>
            obtain ⟨p', rfl⟩ : ∃ p', p = j :: p' := by
              cases p with
              | nil => simp at hj
              | cons a p' => simp at hj; exact ⟨p', by rw [hj]⟩
            refine le_trans (List.countP_mono_left fun e he hon => ?_) (ih hp' x hr.1.1 p')
            simp only [On, path, List.map_cons, beq_iff_eq, List.cons.injEq] at hon ⊢
            exact hon.2
          · next hj =>
            rw [Nat.le_zero, List.countP_eq_zero]
            intro e he hon
            simp only [On, path, List.map_cons, beq_iff_eq] at hon
            rw [← hon, hr.1.2 e he] at hj
            exact hj rfl
        cases p with
        | nil =>
          simp only [List.head?_nil, reduceCtorEq, if_false, Option.all_none, if_true] at *
          omega
        | cons a p =>
          simp only [List.head?_cons, Option.some.injEq, Option.all_some, decide_eq_true_eq] at *
          split at h1 <;> split at h2 <;> split <;> omega
    have := key s 0 hr
    refine le_trans this ?_
    split <;> omega

/-- A batch that leaves at most `c` elements on each path is stored without evicting anything. -/
theorem push_fits (hc : 0 < c) : ∀ (ls : List (Nat × (K → Nat))), (∀ p ∈ ls, 0 < p.1) →
    ∀ s, Inv srt srtS c ls s → ∀ l : List (K × V),
      (∀ p, ((stack srt srtS ls).elems s).countP (On ls p) + l.countP (On ls p) ≤ c) →
      ∃ s', (stack srt srtS ls).block.push s l = .ok ([], s') := by
  intro ls
  induction ls with
  | nil =>
    intro _ (s : Array K V) h l hl
    have h1 := h.1.1
    have h2 : s.capacity = c := h.2
    have h3 := hl []
    rw [total_one] at h1
    have e1 : ∀ l : List (K × V), l.countP (On [] []) = l.length := fun l =>
      List.countP_eq_length.2 fun e _ => by simp [On, path]
    rw [e1, e1] at h3
    have h4 : s.values.length + l.length ≤ c := h3
    rcases Array.push_cases (fun _ => 1) srt srtS s l h.1 with ⟨g1, g2⟩ | ⟨g1, -⟩ | ⟨g1, -⟩ | ⟨g1, -⟩
    · exact ⟨_, g2⟩
    all_goals (rw [total_one] at g1; omega)
  | cons q ls ih =>
    obtain ⟨n, hsh⟩ := q
    intro hp (s : List (stack srt srtS ls).block.State) h l hl
    have hp' : ∀ q ∈ ls, 0 < q.1 := fun q hq => hp q (by simp [hq])
    have hn : 0 < n := hp (n, hsh) (by simp)
    have hlen := length_eq srt srtS c hp' hc s h
    have hr := h.1.2
    rw [hlen] at hr
    obtain ⟨G, g1, g2, g3, g4⟩ := Associative.distribute_replicate hsh (Prod.fst : K × V → K) n hn l
    have loop : ∀ (s : List (stack srt srtS ls).block.State) (gs : List (List (K × V))),
        s.length = gs.length →
        (∀ (i : Nat) (x : (stack srt srtS ls).block.State) g, s[i]? = some x → gs[i]? = some g →
          ∃ x', (stack srt srtS ls).block.push x g = .ok ([], x')) →
        ∃ s', Associative.pushLoop (stack srt srtS ls).block s gs = .ok ([], s') := by
      intro s
      induction s with
      | nil => intro gs hl _; cases gs <;> exact ⟨_, rfl⟩
      | cons x s ihs =>
        intro gs hl hx
        cases gs with
        | nil => simp at hl
        | cons g gs =>
          obtain ⟨x', e1⟩ := hx 0 x g (by simp) (by simp)
          obtain ⟨s', e2⟩ := ihs gs (by simpa using hl) fun i y g' hy hg' =>
            hx (i + 1) y g' (by simpa using hy) (by simpa using hg')
          exact ⟨x' :: s', by simp [Associative.pushLoop, e1, e2]⟩
    obtain ⟨s', e⟩ := loop s G (by rw [hlen, g2]) (by
      intro i x g hx hg
      obtain rfl := g4 i g hg
      refine ih hp' x (hr i x hx).1 _ fun p => ?_
      have hroute := (hr i x hx).2
      have hlt := hl (i :: p)
      have a1 : ((stack srt srtS ls).elems x).countP (On ls p) ≤
          ((stack srt srtS ((n, hsh) :: ls)).elems s).countP (On ((n, hsh) :: ls) (i :: p)) := by
        have hsub : ((stack srt srtS ls).elems x).Sublist (s.flatMap (stack srt srtS ls).elems) := by
          obtain ⟨a, b, rfl⟩ := List.append_of_mem (List.mem_of_getElem? hx)
          simp only [List.flatMap_append, List.flatMap_cons]
          exact (List.sublist_append_left _ _).trans (List.sublist_append_right _ _)
        refine le_trans (List.countP_mono_left fun e he hon => ?_) hsub.countP_le
        simp only [On, path, List.map_cons, beq_iff_eq, List.cons.injEq] at hon ⊢
        exact ⟨by simpa using hroute e he, hon⟩
      have a2 : (l.filter fun e => decide (hsh e.1 % n = i)).countP (On ls p) ≤
          l.countP (On ((n, hsh) :: ls) (i :: p)) := by
        rw [List.countP_filter]
        refine List.countP_mono_left fun e he hon => ?_
        simp only [On, path, List.map_cons, Bool.and_eq_true, beq_iff_eq, decide_eq_true_eq,
          List.cons.injEq] at hon ⊢
        exact ⟨hon.2, hon.1⟩
      omega)
    refine ⟨s', ?_⟩
    change Associative.push hsh (stack srt srtS ls).block s l = _
    simp only [Associative.push, hlen, g1, Res.ok_bind, e]
    rfl

theorem length_le_of_count {E : Type} {f : E → List Nat} (c : Nat) (l : List E) (P : List (List Nat))
    (h : ∀ p ∈ P, l.countP (fun e => f e == p) ≤ c) (hcov : ∀ e ∈ l, f e ∈ P) :
    l.length ≤ P.length * c := by
  have key : ∀ (P : List (List Nat)), (∀ p ∈ P, l.countP (fun e => f e == p) ≤ c) →
      l.countP (fun e => decide (f e ∈ P)) ≤ P.length * c := by
    intro P
    induction P with
    | nil => intro _; simp
    | cons p P ih =>
      intro h
      have h1 := ih fun q hq => h q (by simp [hq])
      have h2 := h p (by simp)
      have h3 : l.countP (fun e => decide (f e ∈ p :: P)) ≤
          l.countP (fun e => f e == p) + l.countP (fun e => decide (f e ∈ P)) := by
        clear * -
        induction l with
        | nil => simp
        | cons e l ihl =>
          simp only [List.countP_cons, List.mem_cons, decide_eq_true_eq, beq_iff_eq] at ihl ⊢
          split <;> split <;> split <;> first | omega | (exfalso; tauto)
      simp only [List.length_cons, Nat.add_mul, Nat.one_mul]
      omega
  have := key P h
  rwa [List.countP_eq_length.2 (fun e he => by simpa using hcov e he)] at this

/-- **Upper bound.** After any history, `size()` is at most `c` times the number of paths keys have. -/
theorem size_le (ls : List (Nat × (K → Nat))) (hpos : ∀ p ∈ ls, 0 < p.1)
    (P : List (List Nat)) (hcov : ∀ k, path ls k ∈ P) (ops : List (Op K V)) (out : List (K × V)) (s')
    (hr : (stack srt srtS ls).block.run (new srt srtS c ls) ops = .ok (out, s')) :
    (stack srt srtS ls).block.size s' ≤ P.length * c := by
  obtain ⟨h1, h2, -⟩ := (core srt srtS c ls).run_ok (popOk srt srtS c ls) ops
    (fun op _ => by cases op <;> exact trivial) _ _ _ (new_inv srt srtS c ls hpos).1 hr
  rcases Nat.eq_zero_or_pos c with rfl | hc
  · have := (core srt srtS 0 ls).bounded s' h1
    rw [capacity_eq srt srtS 0 ls s' h1] at this
    simpa using this
  · rw [size_eq srt srtS c ls s' h1]
    exact length_le_of_count (f := fun e : K × V => path ls e.1) c _ P
      (fun p _ => count_le srt srtS c hc ls hpos s' h1 p) (fun e _ => hcov e.1)

/-- **Lower bound.** If `P` are different paths of some keys, one push reaches `c` times their number. -/
theorem size_reached (ls : List (Nat × (K → Nat))) (hpos : ∀ p ∈ ls, 0 < p.1) (v : V)
    (P : List (List Nat)) (hnd : P.Nodup) (hkey : ∀ p ∈ P, ∃ k, path ls k = p) :
    ∃ (l : List (K × V)) (s' : _),
      (stack srt srtS ls).block.push (new srt srtS c ls) l = .ok ([], s') ∧
      (stack srt srtS ls).block.size s' = P.length * c := by
  obtain ⟨hi, he⟩ := new_inv srt srtS c ls hpos
  have hex : ∃ l : List (K × V), l.length = P.length * c ∧
      ∀ p, l.countP (On ls p) ≤ if p ∈ P then c else 0 := by
    clear hi he
    induction P with
    | nil => exact ⟨[], by simp, by simp⟩
    | cons p P ih =>
      rw [List.nodup_cons] at hnd
      obtain ⟨l, e1, e2⟩ := ih hnd.2 fun q hq => hkey q (by simp [hq])
      obtain ⟨k, hk⟩ := hkey p (by simp)
      refine ⟨List.replicate c (k, v) ++ l, by simp [e1, Nat.add_mul, Nat.add_comm], fun q => ?_⟩
      rw [List.countP_append, List.countP_replicate]
      have := e2 q
      simp only [On, hk, beq_iff_eq, List.mem_cons] at this ⊢
      by_cases hq : p = q
      · subst hq
        simp only [hnd.1, if_false] at this
        simp; omega
      · rw [if_neg hq]
        have hq' : ¬ q = p := fun h => hq h.symm
        simp only [hq', false_or]
        omega
  obtain ⟨l, e1, e2⟩ := hex
  rcases Nat.eq_zero_or_pos c with rfl | hc
  · obtain ⟨out, s', h1, h2, h3, h4⟩ := (core srt srtS 0 ls).push (new srt srtS 0 ls) [] hi trivial
    have h5 := (core srt srtS 0 ls).bounded s' h2
    rw [capacity_eq srt srtS 0 ls s' h2] at h5
    rw [he] at h4
    obtain ⟨-, rfl⟩ := List.append_eq_nil_iff.1 (List.Perm.eq_nil (by simpa using h4) : _ ++ out = [])
    exact ⟨[], s', h1, by simpa using h5⟩
  · obtain ⟨s', h1⟩ := push_fits srt srtS c hc ls hpos _ hi l (fun p => by
      rw [he]
      have := e2 p
      split at this <;> (simp only [List.countP_nil]; omega))
    obtain ⟨out, s1, g1, g2, -, g4⟩ := (core srt srtS c ls).push _ l hi trivial
    rw [h1] at g1; cases g1
    refine ⟨l, s', h1, ?_⟩
    rw [size_eq srt srtS c ls s' g2, ← e1]
    have := g4.length_eq
    rw [he] at this
    simpa using this

end Layers
end Byoc
