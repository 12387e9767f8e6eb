import Verif.Proofs.Copies
import Verif.Props.SeqCellProps
import Verif.Props.MapGetProps

/-!
# C102: cells of a Compressed shared behind `Sequential`

The cells of a Compressed are copies: a cell obtained with `get_mut` writes all the elements it read back to the
container when it is dropped.
-/

namespace Byoc.SeqCopyProps

open Byoc.SeqCells Byoc.Lock SeqCellProps
open Byoc.Seq (SCall)
open MapGetProps (nineVec nineVec_law byValue)
open CompressedProps (noComp)

variable {K V : Type}

/-- Not written. -/
def Unwritten (p : List (K × V) × Nat × Bool) : Prop := p.2.2 = false

/-- No thread has a cell. -/
def NoCell {S P : Type} (s : CState K V S P) : Prop :=
  ∀ (i : Nat), (∀ m k p, s.threads[i]? ≠ some (.cell m k p)) ∧ ∀ k p, s.threads[i]? ≠ some (.dropping k p)

/-- Cells that are copies, whatever the container. -/
theorem copies_explained {B : Block K V} {X : Cells B} {G : GetOps B} {I : B.State → Prop} {Clean : X.Cell → Prop}
    {Pend : B.State → K → X.Cell → B.State → Prop} (hX : Copies X G I Clean Pend) {s₀ : B.State} {n : Nat}
    {l : List (CEv K V X.Cell)} {s : CState K V B.State X.Cell} (h0 : I s₀) (h : QRun X Clean (.new s₀ n) l s)
    (hg : ∀ i c, .called i c ∈ l → Gentle c) : ∃ a, Fine X I Clean Pend s a ∧ Explains G s₀ l a := by
  induction h with
  | nil => exact ⟨_, new_fine h0 n, rfl⟩
  | @snoc l s s' i x e _ hu hs ih =>
    obtain ⟨a, h1, h2⟩ := ih fun i c hc => hg i c (List.mem_append_left _ hc)
    obtain ⟨a', h3, h4⟩ := step_fine hX h1 hu hs fun j c he => hg j c (by rw [he]; simp)
    exact ⟨a', h3, h2.snoc h4⟩

/-- Full statement: whatever the elements (those of a key all take the same room), the threads call capacity, size,
contains, push, get and get_mut, read, write through and drop their cells, and see a sequential execution where each
access through a cell stands for itself. -/
def C102_full : Prop :=
  ∀ (K V : Type) (_ : LinearOrder K) (z : Lz4) (cd : VecCodec (K × V)) (srt srtU : Sorter (K × V)) (cap n : Nat)
    (l : List (CEv K V (List (K × V) × Nat × Bool))) (s : CState K V Compressed (List (K × V) × Nat × Bool)),
    cd.Law → SameSize cd → CRun (compressedHandles z cd srt srtU) (.new (Compressed.new cap) n) l s →
    (∀ i c, .called i c ∈ l → Gentle c) →
    ∃ a, Explains (compressedGet z cd srt srtU) (Compressed.new cap) l a ∧ (NoCell s → s.cont = a)

/-- **C102**, what holds: so it is if no other thread takes a step while a written cell is being dropped. -/
theorem C102_partial [LinearOrder K] {z : Lz4} {cd : VecCodec (K × V)} (srt srtU : Sorter (K × V)) (cap n : Nat)
    {l : List (CEv K V (List (K × V) × Nat × Bool))} {s : CState K V Compressed (List (K × V) × Nat × Bool)}
    (hlaw : cd.Law) (hs : SameSize cd)
    (h : QRun (compressedHandles z cd srt srtU) Unwritten (.new (Compressed.new cap) n) l s)
    (hg : ∀ i c, .called i c ∈ l → Gentle c) :
    ∃ a, Explains (compressedGet z cd srt srtU) (Compressed.new cap) l a ∧ (NoCell s → s.cont = a) := by
  have h0 : Compressed.Inv z cd (Compressed.new cap) := ⟨[], by simp, by simp [Compressed.new, VecStream.new]⟩
  obtain ⟨a, h1, h2⟩ := copies_explained (compressed_copies (z := z) hlaw hs srt srtU) h0 h hg
  refine ⟨a, h2, fun hn => ?_⟩
  rcases h1.rest with h3 | ⟨j, p, h3, h4⟩
  · exact h3
  · exfalso
    cases p with
    | cell m k q => exact (hn j).1 m k q h3
    | dropping k q => exact (hn j).2 k q h3
    | _ => exact h4

/-! ## What does not hold -/

abbrev zip := compressed (K := Fin 256) (V := Fin 256) noComp nineVec byValue byValue
abbrev zipCells : Cells zip := compressedHandles noComp nineVec byValue byValue

theorem nineVec_same : SameSize nineVec := fun _ _ _ => rfl

/-- Thread 0 writes 9 over 7; while the cell is being dropped thread 1 pushes key 2 … -/
def lost : List (Nat × CAct (Fin 256) (Fin 256)) :=
  whole 0 (.op (.push [(1, 7)])) ++ hold 0 (.getMut 1) ++ [(0, .write 9), (0, .dropCell)] ++
  whole 1 (.op (.push [(2, 8)])) ++ [(0, .go)] ++ whole 1 (.op (.contains 2))

/-- … and key 2 is gone, although `push` gave nothing back and only Gentle calls were made. -/
theorem C102_push_lost : ∃ l s, CRun zipCells (.new (Compressed.new 100) 2) l s ∧
    (∀ i c, .called i c ∈ l → Gentle c) ∧ .returned 1 (.op (.push [(2, 8)])) (.obs (.many [])) ∈ l ∧
    .returned 1 (.op (.contains 2)) (.obs (.bool false)) ∈ l ∧
    ¬ ∃ t, Explains (compressedGet noComp nineVec byValue byValue) (Compressed.new 100) l t := by
  refine ⟨_, _, by simpa using play_run (X := zipCells) (as := lost) .nil rfl, ?_, ?_, ?_, ?_⟩
  · intro i c h
    simp only [List.mem_cons, CEv.called.injEq, reduceCtorEq, false_or, List.not_mem_nil, or_false] at h
    rcases h with ⟨_, rfl⟩ | ⟨_, rfl⟩ | ⟨_, rfl⟩ | ⟨_, rfl⟩ <;> trivial
  · here
  · here
  · rintro ⟨t, h⟩
    have h' := follows_of h
    replace h' : none = some t := h'
    cases h'

theorem C102_false : ¬ C102_full := by
  intro h
  obtain ⟨l, s, h1, h2, -, -, h3⟩ := C102_push_lost
  obtain ⟨a, h4, -⟩ := h _ _ _ noComp nineVec byValue byValue 100 2 l s nineVec_law nineVec_same h1 h2
  exact h3 ⟨a, h4⟩

/-- Thread 1 takes the key in between: it has the element and the container too. -/
def doubled : List (Nat × CAct (Fin 256) (Fin 256)) :=
  whole 0 (.op (.push [(1, 7)])) ++ hold 0 (.getMut 1) ++ [(0, .write 9), (0, .dropCell)] ++
  whole 1 (.op (.take 1)) ++ [(0, .go)] ++ whole 1 (.op (.take 1))

theorem C102_take_doubled : ∃ l s, CRun zipCells (.new (Compressed.new 100) 2) l s ∧
    (∀ i x, .called i (.op (.push x)) ∈ l → x = [(1, 7)]) ∧
    .returned 1 (.op (.take 1)) (.obs (.opt (some (1, 7)))) ∈ l ∧
    .returned 1 (.op (.take 1)) (.obs (.opt (some (1, 9)))) ∈ l := by
  refine ⟨_, _, by simpa using play_run (X := zipCells) (as := doubled) .nil rfl, ?_, ?_, ?_⟩
  · intro i x h
    simp only [List.mem_cons, CEv.called.injEq, reduceCtorEq, false_or, List.not_mem_nil, or_false] at h
    rcases h with ⟨_, h⟩ | ⟨_, h⟩ | ⟨_, h⟩ | ⟨_, h⟩ <;> cases h
    rfl
  · here
  · here

/-! ## Non-vacuity -/

/-- A run that disturbs nobody, as `play`. -/
def quiet {B : Block K V} (X : Cells B) (clean : X.Cell → Bool) : CState K V B.State X.Cell → List (Nat × CAct K V) →
    Option (List (CEv K V X.Cell) × CState K V B.State X.Cell)
  | s, [] => some ([], s)
  | s, (i, a) :: l =>
    if (List.range s.threads.length).all fun j => j == i || match s.threads[j]? with
      | some (.dropping _ p) => clean p
      | _ => true
    then match cstep X s i a with
      | some (s', e) => (quiet X clean s' l).map fun x => (e :: x.1, x.2)
      | none => none
    else none

theorem quiet_run {B : Block K V} {X : Cells B} {clean : X.Cell → Bool} {Clean : X.Cell → Prop}
    {s₀ : CState K V B.State X.Cell} {as} (hc : ∀ p, clean p = true → Clean p) :
    ∀ {s l l' s'}, QRun X Clean s₀ l s → quiet X clean s as = some (l', s') → QRun X Clean s₀ (l ++ l') s' := by
  induction as with
  | nil =>
    intro s l l' s' h hp
    simp only [quiet, Option.some.injEq, Prod.mk.injEq] at hp
    obtain ⟨rfl, rfl⟩ := hp
    simpa using h
  | cons x as ih =>
    intro s l l' s' h hp
    obtain ⟨i, a⟩ := x
    simp only [quiet] at hp
    split at hp
    · rename_i hu
      split at hp
      · rename_i s1 e hs
        simp only [Option.map_eq_some_iff] at hp
        obtain ⟨⟨l2, s2⟩, h2, h3⟩ := hp
        simp only [Prod.mk.injEq] at h3
        obtain ⟨rfl, rfl⟩ := h3
        have hU : Undisturbed Clean s i := by
          intro j k p hj ht
          have hlt : j < s.threads.length := (List.getElem?_eq_some_iff.1 ht).1
          have := List.all_eq_true.1 hu j (List.mem_range.2 hlt)
          rw [ht] at this
          exact hc p (by simpa [hj] using this)
        simpa using ih (h.snoc hU hs) h2
      · simp at hp
    · simp at hp

/-- Two threads hold read-only cells at the same time; one drops its cell while the other goes on; then thread 1 writes
through a cell, thread 0 waiting, and thread 0 reads what it wrote. -/
def calm : List (Nat × CAct (Fin 256) (Fin 256)) :=
  whole 0 (.op (.push [(1, 7), (2, 8)])) ++ hold 0 (.get 1) ++ hold 1 (.get 2) ++
  [(0, .deref), (0, .dropCell), (1, .deref), (0, .go), (1, .dropCell), (1, .go)] ++
  [(0, .call (.get 1))] ++ hold 1 (.getMut 1) ++ [(1, .write 9), (1, .deref), (1, .dropCell), (1, .go)] ++
  [(0, .go), (0, .go), (0, .go), (0, .go), (0, .deref), (0, .dropCell), (0, .go)]

example : ∃ l s, QRun zipCells Unwritten (.new (Compressed.new 100) 2) l s ∧ (∀ i c, .called i c ∈ l → Gentle c) ∧
    .read 0 1 (some 7) ∈ l ∧ .read 1 2 (some 8) ∈ l ∧ .wrote 1 1 9 ∈ l ∧ .read 0 1 (some 9) ∈ l ∧
    Explains (compressedGet noComp nineVec byValue byValue) (Compressed.new 100) l s.cont := by
  have key : ∃ l s, QRun zipCells Unwritten (.new (Compressed.new 100) 2) l s ∧
      (∀ i c, .called i c ∈ l → Gentle c) ∧
      (.read 0 1 (some 7) ∈ l ∧ .read 1 2 (some 8) ∈ l ∧ .wrote 1 1 9 ∈ l ∧ .read 0 1 (some 9) ∈ l) ∧
      s.threads = [.idle, .idle] := by
    have hq := quiet_run (X := zipCells) (clean := fun p => !p.2.2) (Clean := Unwritten) (as := calm)
      (by intro p hp; simpa [Unwritten] using hp)
      (.nil (s₀ := .new (Compressed.new 100) 2)) rfl
    refine ⟨_, _, by simpa using hq, ?_, ⟨by here, by here, by here, by here⟩, rfl⟩
    intro i c h
    simp only [List.mem_cons, CEv.called.injEq, reduceCtorEq, false_or, List.not_mem_nil, or_false] at h
    rcases h with ⟨_, rfl⟩ | ⟨_, rfl⟩ | ⟨_, rfl⟩ | ⟨_, rfl⟩ | ⟨_, rfl⟩ <;> trivial
  obtain ⟨l, s, h1, h2, h3, ht⟩ := key
  obtain ⟨a, h4, h5⟩ := C102_partial byValue byValue 100 2 nineVec_law nineVec_same h1 h2
  have : s.cont = a := by
    refine h5 fun i => ?_
    rw [ht]
    exact match i with
    | 0 => ⟨(fun _ _ _ h => by cases h), (fun _ _ h => by cases h)⟩
    | 1 => ⟨(fun _ _ _ h => by cases h), (fun _ _ h => by cases h)⟩
    | _ + 2 => ⟨(fun _ _ _ h => by cases h), (fun _ _ h => by cases h)⟩
  subst this
  exact ⟨l, s, h1, h2, h3.1, h3.2.1, h3.2.2.1, h3.2.2.2, h4⟩

end Byoc.SeqCopyProps
