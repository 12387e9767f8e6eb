import Verif.Proofs.Stack

/-! # Containers counting elements evict exactly what is asked -/

namespace Byoc

variable {K V : Type}

/-- `pop(n)`, `n > 0`, removes exactly `n` elements, or all of them if there are fewer. -/
def PopExact (B : Block K V) (Inv : B.State → Prop) (elems : B.State → List (K × V)) : Prop :=
  ∀ s n out s', Inv s → 0 < n → B.pop s n = .ok (out, s') → out.length = min n (elems s).length

theorem PopExact.mono {B : Block K V} {Inv Inv' : B.State → Prop} {elems} (h : PopExact B Inv elems)
    (hi : ∀ s, Inv' s → Inv s) : PopExact B Inv' elems :=
  fun s n out s' hs => h s n out s' (hi s hs)

theorem Array.popExact [LinearOrder K] (srt srtS : Sorter (K × V)) :
    PopExact (arrayBlock (fun _ => 1) srt srtS) (Array.Inv fun _ => 1) Array.values := by
  intro s n out s' h hn he
  replace he : Array.pop (fun _ => 1) srt s n = .ok (out, s') := he
  have hs := h.1
  rw [total_one] at hs
  rcases Array.pop_cases (fun _ => 1) srt s n h with ⟨h1, h2⟩ | ⟨-, h1, h2⟩ |
    ⟨-, h1, p, q, h2, h3, h4, h5, h6⟩
  · rw [h2] at he; cases he; simp [h1]
  · rw [h2] at he; cases he; omega
  · rw [h6] at he; cases he
    rw [total_one] at h4
    cases out with
    | nil => exact absurd rfl h3
    | cons x q' =>
      have h7 := h5 x q' rfl
      rw [total_one] at h7
      have h8 : q'.length < n := by
        rcases h7 with rfl | h7
        · simpa using hn
        · exact h7
      simp only [List.length_cons] at h4 ⊢
      omega

theorem exclusive_popExact [LinearOrder K] {F B : Block K V} {If Ib ef eb Pre Pre'}
    (hF : Lawful F If ef Pre) (hB : Lawful B Ib eb Pre')
    (sB : Slots B Ib eb) (pF : PopExact F If ef) (pB : PopExact B Ib eb) :
    PopExact (exclusive F B) (fun s => If s.1 ∧ Ib s.2) (exclusiveElems ef eb) := by
  intro s n out s' h hn he
  obtain ⟨v, b, h1, h2, h3, h4, h5⟩ := hB.pop s.2 n h.2
  have e1 := pB _ _ _ _ h.2 hn h1
  have z1 := sB.size _ h.2
  have z2 := sB.size _ h2
  have z3 := h4.length_eq
  rw [List.length_append] at z3
  have hle : B.size b ≤ B.size s.2 := by omega
  simp only [exclusive, h1, Res.ok_bind, Res.sub_ok hle] at he
  simp only [exclusiveElems, List.length_append]
  split at he
  · next hlt =>
    obtain ⟨v', f, g1, -⟩ := hF.pop s.1 (n - (B.size s.2 - B.size b)) h.1
    have e2 := pF _ _ _ _ h.1 (by omega) g1
    simp only [g1, Res.ok_bind, Res.pure_eq, Res.ok.injEq] at he
    obtain ⟨rfl, -⟩ := he
    rw [List.length_append]
    omega
  · next hge =>
    simp only [Res.pure_eq, Res.ok.injEq] at he
    obtain ⟨rfl, -⟩ := he
    omega

theorem batch_popExact {C : Block K V} {I ec Pre} (hC : Lawful C I ec Pre) (sC : Slots C I ec)
    (pC : PopExact C I ec) : PopExact (batch C) (batchInv I) (batchElems ec) := by
  have key : ∀ (s : List C.State) (n : Nat) (out : List (K × V)) (s' : List C.State),
      (∀ c ∈ s, I c) → 0 < n → Batch.popLoop C s n = .ok (out, s') →
      out.length = min n (batchElems ec s).length := by
    intro s
    induction s with
    | nil =>
      intro n out s' _ _ he
      simp only [Batch.popLoop, Res.ok.injEq, Prod.mk.injEq] at he
      obtain ⟨rfl, -⟩ := he
      simp [batchElems]
    | cons c cs ih =>
      intro n out s' hs hn he
      have hc := hs c (by simp)
      obtain ⟨v, b, h1, h2, h3, h4, h5⟩ := hC.pop c n hc
      have e1 := pC _ _ _ _ hc hn h1
      have z1 := sC.size _ hc
      have z2 := sC.size _ h2
      have z3 := h4.length_eq
      rw [List.length_append] at z3
      have hle : C.size b ≤ C.size c := by omega
      simp only [Batch.popLoop, h1, Res.ok_bind, Res.sub_ok hle] at he
      rw [batchElems_cons, List.length_append]
      split at he
      · next hge =>
        simp only [Res.pure_eq, Res.ok.injEq, Prod.mk.injEq] at he
        obtain ⟨rfl, -⟩ := he
        omega
      · next hlt =>
        cases hp : Batch.popLoop C cs (n - (C.size c - C.size b)) with
        | panic => simp [hp] at he
        | ok r =>
          obtain ⟨o, cs'⟩ := r
          have e2 := ih _ _ _ (fun x hx => hs x (by simp [hx])) (by omega) hp
          simp only [hp, Res.ok_bind, Res.pure_eq, Res.ok.injEq, Prod.mk.injEq] at he
          obtain ⟨rfl, -⟩ := he
          rw [List.length_append]
          omega
  intro (s : List C.State) n out (s' : List C.State) hs hn he
  cases hp : Batch.popLoop C s.reverse n with
  | panic => simp [batch, Batch.pop, hp] at he
  | ok r =>
    obtain ⟨o, r⟩ := r
    simp only [batch, Batch.pop, hp, Res.ok_bind, Res.pure_eq, Res.ok.injEq, Prod.mk.injEq] at he
    obtain ⟨rfl, -⟩ := he
    rw [key _ _ _ _ (fun c hc => hs c (List.mem_reverse.1 hc)) hn hp]
    congr 1
    exact ((List.reverse_perm s).flatMap_right ec).length_eq

theorem decorator_popExact (D : Decoration V) {C : Block K D.Item} {I : C.State → Prop}
    {ec : C.State → List (K × D.Item)} (h : PopExact C I ec) :
    PopExact (decorator D C) (fun s => I s.1) (decoratorElems D ec) := by
  intro s n out s' hs hn he
  cases hp : C.pop s.1 n with
  | panic => simp [decorator, hp] at he
  | ok r =>
    obtain ⟨o, c⟩ := r
    simp only [decorator, hp, Res.ok_bind, Res.pure_eq, Res.ok.injEq] at he
    obtain ⟨rfl, -⟩ := he
    simpa [decoratorElems] using h _ _ _ _ hs hn hp

theorem profiler_popExact {C : Block K V} {I ec} (h : PopExact C I ec) :
    PopExact (profiler C) (fun s => I s.1) (fun s => ec s.1) := by
  intro s n out s' hs hn he
  cases hp : C.pop s.1 n with
  | panic => simp [profiler, hp] at he
  | ok r =>
    obtain ⟨o, c⟩ := r
    cases hd : Res.sub (C.size s.1) (C.size c) with
    | panic => simp [profiler, hp, hd] at he
    | ok d =>
      simp only [profiler, hp, hd, Res.ok_bind, Res.pure_eq, Res.ok.injEq] at he
      obtain ⟨rfl, -⟩ := he
      exact h _ _ _ _ hs hn hp

theorem anyOf_popExact {ι : Type} {B : ι → Block K V}
    {I : ∀ i, (B i).State → Prop} {e : ∀ i, (B i).State → List (K × V)}
    (h : ∀ i, PopExact (B i) (I i) (e i)) :
    PopExact (anyOf B) (fun s => I s.1 s.2) (fun s => e s.1 s.2) := by
  intro s n out s' hs hn he
  cases hp : (B s.1).pop s.2 n with
  | panic => simp [anyOf, hp] at he
  | ok r =>
    obtain ⟨o, c⟩ := r
    simp only [anyOf, hp, Res.ok_bind, Res.pure_eq, Res.ok.injEq] at he
    obtain ⟨rfl, -⟩ := he
    exact h s.1 _ _ _ _ hs hn hp

namespace Stack

variable [LinearOrder K]

omit [LinearOrder K] in
theorem counting_noAssociative {V : Type} (t : Stack K V) : t.Counting → t.NoAssociative := by
  induction t with
  | array sz srt srtS => intro _; trivial
  | exclusive f b ihf ihb => intro h; exact ⟨ihf h.1, ihb h.2⟩
  | batch c ih => exact ih
  | associative hash c ih => exact id
  | flushStopper c ih => exact ih
  | sequential c ih => exact ih
  | dyn ι c ih => intro h i; exact ih i (h i)
  | decorator D A c ih => exact ih
  | profiler c ih => exact ih

theorem popExact {V : Type} (p : Prop) (t : Stack K V) : t.WF → t.Counting →
    PopExact t.block (t.Inv p) t.elems := by
  induction t with
  | array sz srt srtS =>
    intro _ h
    obtain rfl : sz = fun _ => 1 := funext h
    exact Array.popExact srt srtS
  | exclusive f b ihf ihb =>
    intro h n
    exact exclusive_popExact
      ((f.lawful p h.1 (f.counting_noAssociative n.1)).withCapacity (fun n => p → 0 < n))
      (b.lawful p h.2 (b.counting_noAssociative n.2)) (b.slots p h.2 n.2)
      ((ihf h.1 n.1).mono fun _ hs => hs.1) (ihb h.2 n.2)
  | batch c ih =>
    intro h n
    exact batch_popExact (c.lawful p h (c.counting_noAssociative n)) (c.slots p h n) (ih h n)
  | associative hash c ih => intro _ n; exact n.elim
  | flushStopper c ih => intro h n; exact ih h n
  | sequential c ih => exact ih
  | dyn ι c ih => intro h n; exact anyOf_popExact fun i => ih i (h i) (n i)
  | decorator D A c ih => intro h n; exact decorator_popExact D (ih h.2 n)
  | profiler c ih => intro h n; exact profiler_popExact (ih h.2 n)

end Stack
end Byoc
