import Verif.Proofs.Sequential
import Verif.Proofs.Get
import Verif.Props.ArrayProps

/-!
# C35, C55: a container shared by threads behind `Sequential`
-/

namespace Byoc.SequentialProps

open Byoc.Seq Byoc.Lock ArrayProps

variable {K V S : Type}

/-- What the threads saw (`l`) and the container left (`final`) are those of a sequential execution:
* performing the executed calls one after the other, in the order of the events, on the initial
  container gives the results they had and the final container;
* a call that returned `r` executed once, with result `r`, between the moment it was called and the
  moment it returned, and its thread did nothing else in between;
* only calls made are executed. -/
structure Linearizable (C : Container K V) (s₀ : C.block.State) (l : List (SEv K V))
    (final : C.block.State) : Prop where
  order : C.runs s₀ ((executedIn l).map Prod.fst) = .ok ((executedIn l).map Prod.snd, final)
  returned : ∀ l1 l2 i c r, l = l1 ++ .returned i c r :: l2 →
    ∃ a b d, l1 = a ++ .called i c :: b ++ .executed i c r :: d ∧ Quiet i b ∧ Quiet i d
  executed : ∀ l1 l2 i c r, l = l1 ++ .executed i c r :: l2 →
    ∃ a b, l1 = a ++ .called i c :: b ∧ Quiet i b

/-- Used by a single thread, the container never panics. -/
def NeverPanics (C : Container K V) (s₀ : C.block.State) : Prop := ∀ cs, C.runs s₀ cs ≠ .panic

/-- Full statement of C35: with any number of threads and any schedule, over any container that works
with one thread, the execution is linearizable and no call panics. -/
def C35_full : Prop :=
  ∀ (K V : Type) (C : Container K V) (s₀ : C.block.State) (n : Nat) (l : List (SEv K V))
    (s : SState K V C.block.State), C.ReadOnly → NeverPanics C s₀ → SRun C (.new s₀ n) l s →
    Linearizable C s₀ l s.cont ∧ ∀ i c, .panicked i c ∉ l

/-- **C35**, proved part: every execution is linearizable, panics included. -/
theorem C35_partial {C : Container K V} (hro : C.ReadOnly) {s₀ : C.block.State} {n : Nat}
    {l : List (SEv K V)} {s : SState K V C.block.State} (h : SRun C (.new s₀ n) l s) :
    Linearizable C s₀ l s.cont where
  order := h.replay (new_inv s₀ n) hro
  returned l1 l2 i c r hl := (h.event (new_says s₀ n) l1 _ l2 hl).1 i c r rfl
  executed l1 l2 i c r hl := (h.event (new_says s₀ n) l1 _ l2 hl).2.1 i c r rfl

/-- At most one thread runs a method that changes the container, and then no other thread runs any:
the container is never read or written while it is being changed. -/
theorem C35_exclusive {C : Container K V} {s₀ : C.block.State} {n : Nat}
    {l : List (SEv K V)} {s : SState K V C.block.State} (h : SRun C (.new s₀ n) l s)
    {i j : Nat} {c c' : SCall K V} {t t'} (hij : i ≠ j)
    (hi : s.threads[i]? = some (.inside c t)) (hj : s.threads[j]? = some (.inside c' t')) :
    c.write = false ∧ c'.write = false := by
  have hinv := h.inv (new_inv s₀ n)
  have key : ∀ {i j : Nat} {c c' : SCall K V} {t t'}, i ≠ j →
      s.threads[i]? = some (.inside c t) → s.threads[j]? = some (.inside c' t') →
      c.write = false := by
    intro i j c c' t t' hij hi hj
    by_contra hw
    have := hinv.alone (q := .idle) (c := c') (t := t') hi (by simpa [Pc.wi] using hw)
      (by
        refine List.mem_of_getElem? (i := j) ?_
        rw [List.getElem?_set_ne hij]; exact hj)
    cases this
  exact ⟨key hij hi hj, key (Ne.symm hij) hj hi⟩

/-- A call panics only if the container's method itself panics, or some call panicked before, or
another thread is in the middle of a call. -/
theorem C35_why_panic {C : Container K V} {s₀ : C.block.State} {n : Nat} {l : List (SEv K V)}
    {s s' : SState K V C.block.State} (h : SRun C (.new s₀ n) l s) {i j : Nat} {a c}
    (hs : sstep C s i a = some (s', .panicked j c)) :
    (∃ j c, .panicked j c ∈ l) ∨ C.exec c s.cont = .panic ∨
      ∃ (j : Nat) (p : Pc K V C.block.State), j ≠ i ∧ s.threads[j]? = some p ∧ p.Busy := by
  have hinv := h.inv (new_inv s₀ n)
  have h0 : ¬ ((SState.new (K := K) (V := V) s₀ n).oPoison = true ∨
      (SState.new (K := K) (V := V) s₀ n).iPoison = true ∨
      ∃ h, Pc.dead h ∈ (SState.new (K := K) (V := V) s₀ n).threads) := by
    simp [SState.new]
  rcases step_panics hinv hs with h1 | h1 | h1 | h1
  · exact .inl (h.poison h0 (.inl h1))
  · exact .inl (h.poison h0 (.inr (.inl h1)))
  · exact .inr (.inl h1)
  · exact .inr (.inr h1)

/-- `push` without effect: `skipped` results occur only after a panic. -/
theorem C35_skip_after_panic {C : Container K V} {s₀ : C.block.State} {n : Nat} {l : List (SEv K V)}
    {s s' : SState K V C.block.State} (h : SRun C (.new s₀ n) l s) {i j : Nat} {a c r}
    (hs : sstep C s i a = some (s', .skipped j c r)) : ∃ j c, .panicked j c ∈ l := by
  refine h.poison (by simp [SState.new]) (.inl ?_)
  simp only [sstep] at hs
  split at hs
  all_goals repeat' split at hs
  all_goals simp only [Option.some.injEq, Prod.mk.injEq, reduceCtorEq, and_false] at hs
  assumption

/-! ### An `Array` behind `Sequential` -/

/-- src/array as the container: at most 2 elements of size 1. -/
def arr : Container Nat Nat :=
  .ofGet (arrayBlock (fun _ => 1) natSorter natSorter) (arrayGet (fun _ => 1) natSorter natSorter)

theorem arr_readOnly : arr.ReadOnly := by
  intro c s r t hw h
  cases c with
  | capacity => simp [Container.exec] at h; exact h.2.symm
  | size => simp [Container.exec] at h; exact h.2.symm
  | get k => simp [SCall.write] at hw
  | getMut k => simp [SCall.write] at hw
  | op o =>
    cases o with
    | contains k =>
      simp [Container.exec, Block.observe, arr, Container.ofGet, arrayBlock] at h
      exact (congrArg Prod.snd h).symm
    | _ => simp [SCall.write] at hw

/-- A lawful block whose accesses are lawful never panics with one thread. -/
theorem neverPanics_of_lawful {B : Block K V} {G : GetOps B} {Inv elems} {PreF : (V → V) → Prop}
    (h : Lawful B Inv elems (fun _ => True)) (g : GetLawful B G Inv elems PreF) (hid : PreF id)
    {s₀ : B.State} (h0 : Inv s₀) : NeverPanics (.ofGet B G) s₀ := by
  intro cs
  induction cs generalizing s₀ with
  | nil => simp [Container.runs]
  | cons c cs ih =>
    have key : ∃ r s', (Container.ofGet B G).exec c s₀ = .ok (r, s') ∧ Inv s' := by
      cases c with
      | capacity => exact ⟨_, _, rfl, h0⟩
      | size => exact ⟨_, _, rfl, h0⟩
      | get k =>
        obtain ⟨o, s', h1, h2, -⟩ := g.get s₀ k id h0 hid
        exact ⟨_, s', by simp only [Container.exec, Container.ofGet, h1, Res.ok_bind]; rfl, h2⟩
      | getMut k =>
        obtain ⟨o, s', h1, h2, -⟩ := g.getMut s₀ k id h0 hid
        exact ⟨_, s', by simp only [Container.exec, Container.ofGet, h1, Res.ok_bind]; rfl, h2⟩
      | op o =>
        obtain ⟨out, s', h1, h2, -⟩ := h.step s₀ h0 o (by cases o <;> exact trivial)
        rw [Block.step_eq_observe] at h1
        cases ho : B.observe s₀ o with
        | panic => rw [ho] at h1; simp at h1
        | ok x =>
          obtain ⟨r, s''⟩ := x
          rw [ho] at h1
          simp at h1
          obtain ⟨-, rfl⟩ := h1
          exact ⟨_, s'', by simp only [Container.exec, Container.ofGet, ho, Res.ok_bind]; rfl, h2⟩
    obtain ⟨r, s', h1, h2⟩ := key
    simp only [Container.runs]
    rw [h1]
    simp only [Res.ok_bind]
    have := ih h2
    cases hr : (Container.ofGet B G).runs s' cs with
    | panic => exact absurd hr this
    | ok x => simp

theorem arr_neverPanics : NeverPanics arr (Array.new 2) :=
  neverPanics_of_lawful (Array.lawful _ _ _) (Array.getLawful _ _ _) (fun _ _ => rfl)
    (Array.new_inv _ 2)

/-- Perform a schedule. -/
def play (C : Container K V) : SState K V C.block.State → List (Nat × SAct K V) →
    Option (List (SEv K V) × SState K V C.block.State)
  | s, [] => some ([], s)
  | s, (i, a) :: l => match sstep C s i a with
    | some (s', e) => (play C s' l).map fun x => (e :: x.1, x.2)
    | none => none

theorem play_run {C : Container K V} {s₀ : SState K V C.block.State} {as} :
    ∀ {s l l' s'}, SRun C s₀ l s → play C s as = some (l', s') → SRun C s₀ (l ++ l') s' := by
  induction as with
  | nil =>
    intro s l l' s' h hp
    simp only [play, Option.some.injEq, Prod.mk.injEq] at hp
    obtain ⟨rfl, rfl⟩ := hp
    simpa using h
  | cons x as ih =>
    intro s l l' s' h hp
    obtain ⟨i, a⟩ := x
    simp only [play] at hp
    split at hp
    · rename_i s1 e hs
      simp only [Option.map_eq_some_iff] at hp
      obtain ⟨⟨l2, s2⟩, h2, h3⟩ := hp
      simp only [Prod.mk.injEq] at h3
      obtain ⟨rfl, rfl⟩ := h3
      simpa using ih (h.snoc hs) h2
    · simp at hp

def isPanic : SEv K V → Bool
  | .panicked _ _ => true
  | _ => false

theorem mem_of_isPanic {l : List (SEv K V)} (h : l.any isPanic = true) : ∃ i c, .panicked i c ∈ l := by
  obtain ⟨e, he, hp⟩ := List.any_eq_true.1 h
  cases e with
  | panicked i c => exact ⟨i, c, he⟩
  | _ => simp [isPanic] at hp

/-- Two threads push: the second one passes the outer lock when the first has released it but still
holds the write guard of the inner lock. -/
def pushPush : List (Nat × SAct Nat Nat) :=
  [(0, .call (.op (.push [(1, 1)]))), (0, .go), (1, .call (.op (.push [(2, 2)]))), (0, .go), (0, .go),
   (0, .go), (1, .go), (1, .go)]

/-- Two threads take: both pass the outer lock before either runs. -/
def takeTake : List (Nat × SAct Nat Nat) :=
  [(0, .call (.op (.take 1))), (1, .call (.op (.take 2))), (0, .go), (1, .go), (0, .go), (1, .go)]

theorem C35_contention_panics (as : List (Nat × SAct Nat Nat)) (h : as = pushPush ∨ as = takeTake) :
    ∃ l s, SRun arr (.new (Array.new 2) 2) l s ∧ ∃ i c, .panicked i c ∈ l := by
  have hd : ∀ as, as = pushPush ∨ as = takeTake →
      (play arr (.new (Array.new 2) 2) as).any (fun x => x.1.any isPanic) = true := by
    rintro as (rfl | rfl) <;> decide +kernel
  have := hd as h
  cases hp : play arr (.new (Array.new 2) 2) as with
  | none => rw [hp] at this; simp at this
  | some x =>
    obtain ⟨l, s⟩ := x
    rw [hp] at this
    exact ⟨l, s, by simpa using play_run .nil hp, mem_of_isPanic (by simpa using this)⟩

theorem C35_false : ¬ C35_full := by
  intro h
  obtain ⟨l, s, hr, i, c, hm⟩ := C35_contention_panics _ (.inl rfl)
  exact (h Nat Nat arr (Array.new 2) 2 l s arr_readOnly arr_neverPanics hr).2 i c hm

/-- Thread 1 panics under contention and drops its clone, which poisons the outer lock; thread 0, whose
call returned normally, then pushes. -/
def lossy : List (Nat × SAct Nat Nat) :=
  takeTake ++ [(1, .unwind), (0, .go), (0, .go), (0, .go), (0, .call (.op (.push [(5, 5)]))), (0, .go)]

def isLoss : SEv Nat Nat → Bool
  | .skipped _ (.op (.push [(5, 5)])) (.obs (.many [])) => true
  | _ => false

/-- After a panic under contention, a push by a thread that did not panic returns nothing and stores
nothing: the element is lost. -/
theorem C35_push_loses : ∃ l s, SRun arr (.new (Array.new 2) 2) l s ∧
    (∃ i, .skipped i (.op (.push [(5, 5)])) (.obs (.many [])) ∈ l) ∧ s.cont.values = [] := by
  have h1 : (play arr (.new (Array.new 2) 2) lossy).any (fun x => x.1.any isLoss) = true := by
    decide +kernel
  have h2 : (play arr (.new (Array.new 2) 2) lossy).all (fun x => x.2.cont.values.isEmpty) = true := by
    decide +kernel
  cases hp : play arr (.new (Array.new 2) 2) lossy with
  | none => rw [hp] at h1; simp at h1
  | some x =>
    obtain ⟨l, s⟩ := x
    rw [hp] at h1 h2
    refine ⟨l, s, by simpa using play_run .nil hp, ?_, by simpa using h2⟩
    obtain ⟨e, he, hl⟩ := List.any_eq_true.1 (by simpa using h1 : l.any isLoss = true)
    unfold isLoss at hl
    split at hl
    · exact ⟨_, he⟩
    · simp at hl

/-- A schedule that interleaves two calls that both return: the hypotheses of `C35_partial` are met by
a run in which both threads executed. -/
def interleaved : List (Nat × SAct Nat Nat) :=
  [(0, .call (.op (.push [(1, 7)]))), (1, .call (.op (.take 1))), (0, .go), (0, .go), (0, .go), (0, .go),
   (1, .go), (0, .go), (1, .go), (1, .go), (1, .go), (1, .go)]

theorem C35_witness : ∃ l s, SRun arr (.new (Array.new 2) 2) l s ∧ (executedIn l).length = 2 ∧
    (∃ c, .returned 1 c (.obs (.opt (some (1, 7)))) ∈ l) := by
  have h1 : (play arr (.new (Array.new 2) 2) interleaved).any (fun x => (executedIn x.1).length == 2 &&
      x.1.any (fun e => match e with
        | .returned 1 _ (.obs (.opt (some (1, 7)))) => true
        | _ => false)) = true := by
    decide +kernel
  cases hp : play arr (.new (Array.new 2) 2) interleaved with
  | none => rw [hp] at h1; simp at h1
  | some x =>
    obtain ⟨l, s⟩ := x
    rw [hp] at h1
    simp only [Option.any_some, Bool.and_eq_true, beq_iff_eq] at h1
    refine ⟨l, s, by simpa using play_run .nil hp, h1.1, ?_⟩
    obtain ⟨e, he, hl⟩ := List.any_eq_true.1 h1.2
    split at hl
    · exact ⟨_, he⟩
    · simp at hl

/-! ## C55: cells -/

/-- Full statement of C55: while a thread holds a cell, no call of another thread changes the
container; while it holds a cell obtained with `get_mut`, no call of another thread reads it either. -/
def C55_full : Prop :=
  ∀ (K V : Type) (C : Container K V) (s₀ : C.block.State) (n : Nat) (l : List (SEv K V))
    (s s' : SState K V C.block.State) (i j : Nat) (m : Mode) (a : SAct K V) (c : SCall K V)
    (r : SObs K V), C.ReadOnly → SRun C (.new s₀ n) l s → i ≠ j →
    s.threads[i]? = some (.cell m) → sstep C s j a = some (s', .executed j c r) →
    s'.cont = s.cont ∧ m ≠ .excl

/-- **C55**, proved part: while a thread holds a cell, no `push` and no `get_mut` of another thread
executes; while it holds a cell obtained with `get_mut`, no `flush` and no `get` either. -/
theorem C55_partial {C : Container K V} {s₀ : C.block.State} {n : Nat} {l : List (SEv K V)}
    {s s' : SState K V C.block.State} (h : SRun C (.new s₀ n) l s) {i j : Nat} {m : Mode} {a c r}
    (hij : i ≠ j) (hi : s.threads[i]? = some (.cell m))
    (hs : sstep C s j a = some (s', .executed j c r)) :
    (∀ x, c ≠ .op (.push x)) ∧ (∀ k, c ≠ .getMut k) ∧
    (m = .excl → c ≠ .op .flush ∧ ∀ k, c ≠ .get k) := by
  have hinv := h.inv (new_inv s₀ n)
  obtain ⟨-, t, ht⟩ := step_executes hs
  refine ⟨?_, ?_, ?_⟩
  · rintro x rfl
    exact hinv.outer (Ne.symm hij) ht hi rfl rfl
  · rintro k rfl
    exact hinv.outer (Ne.symm hij) ht hi rfl rfl
  · rintro rfl
    refine ⟨?_, ?_⟩
    · rintro rfl
      exact hinv.outer hij hi ht rfl rfl
    · rintro k rfl
      exact hinv.outer hij hi ht rfl rfl


/-- Where a thread can be that made no call before another one obtained a cell of mode `m`. -/
private def Behind (m : Mode) : Pc K V S → Prop
  | .locked c => m = .shared ∧ c.mode = .shared
  | .inside c _ => m = .shared ∧ c.mode = .shared
  | .leaving c _ => m = .shared ∧ c.mode = .shared
  | .closing c _ => m = .shared ∧ c.mode = .shared
  | _ => True

private theorem step_behind {C : Container K V} {s s' : SState K V C.block.State} (hinv : SInv s)
    {i j k : Nat} {m a e p} (hi : s.threads[i]? = some (.cell m)) (hj : s.threads[j]? = some p)
    (hp : Behind m p) (hs : sstep C s k a = some (s', e)) (hk : e.thread ≠ i) :
    s'.threads[i]? = some (.cell m) ∧ (∃ p', s'.threads[j]? = some p' ∧ Behind m p') ∧
    ∀ c r, e = .executed j c r → m = .shared ∧ c.mode = .shared := by
  have hth : e.thread = k := by
    simp only [sstep] at hs
    split at hs
    all_goals repeat' split at hs
    all_goals simp only [Option.some.injEq, Prod.mk.injEq, reduceCtorEq] at hs
    all_goals obtain ⟨-, rfl⟩ := hs
    all_goals rfl
  have hki : k ≠ i := hth ▸ hk
  have hlt : k < s.threads.length := by
    by_contra hc
    have : s.threads[k]? = none := by simpa using hc
    simp [sstep, this] at hs
  have hframe : ∃ q, s'.threads = s.threads.set k q := by
    simp only [sstep] at hs
    split at hs
    all_goals repeat' split at hs
    all_goals simp only [Option.some.injEq, Prod.mk.injEq, reduceCtorEq] at hs
    all_goals obtain ⟨rfl, -⟩ := hs
    all_goals exact ⟨_, by simp [SState.setPc]; rfl⟩
  obtain ⟨q, hq⟩ := hframe
  have h1 : s'.threads[i]? = some (.cell m) := by rw [hq, List.getElem?_set_ne hki]; exact hi
  by_cases hkj : k = j
  · subst hkj
    have hxo := hinv.xo
    have hso := hinv.so
    have a1 := le_sum Pc.xo s.threads _ (List.mem_of_getElem? hi)
    have a2 := le_sum Pc.so s.threads _ (List.mem_of_getElem? hi)
    have hx : m = .excl → s.oWriter = true := by
      rintro rfl
      cases hb : s.oWriter
      · rw [hb] at hxo; simp [Pc.xo, Pc.hold] at hxo a1; omega
      · rfl
    have hsr : m = .shared → s.oReaders ≠ 0 := by
      rintro rfl
      simp [Pc.so, Pc.hold] at hso a2; omega
    refine ⟨h1, ?_⟩
    have hsel : ∀ q' : Pc K V C.block.State, s'.threads = s.threads.set k q' → Behind m q' →
        ∃ p', s'.threads[k]? = some p' ∧ Behind m p' := fun q' h2 h3 =>
      ⟨q', by rw [h2, List.getElem?_set_self hlt], h3⟩
    cases p <;> cases a <;> simp only [sstep, hj, reduceCtorEq] at hs
    all_goals repeat' split at hs
    all_goals simp only [Option.some.injEq, Prod.mk.injEq, reduceCtorEq] at hs
    all_goals obtain ⟨rfl, rfl⟩ := hs
    all_goals refine ⟨hsel _ (by simp [SState.setPc]; rfl) ?_, ?_⟩
    all_goals first
      | trivial
      | exact hp
      | (intro c r h; cases h; exact hp)
      | (intro c r h; exact absurd h (by simp))
      | (cases m
         · first | exact ⟨rfl, by assumption⟩ | (exfalso; simp_all)
         · exfalso; simp_all)
  · refine ⟨h1, ⟨p, by rw [hq, List.getElem?_set_ne hkj]; exact hj, hp⟩, ?_⟩
    rintro c r rfl
    exact absurd hth.symm hkj

/-- **C55**, proved part: thread `j` is not in a call when thread `i` obtains a cell.  As long as `i`
keeps it, no `push`, `pop`, `take` and no `get_mut` of `j` executes, and no call at all if the cell was
obtained with `get_mut`. -/
theorem C55_partial_waits {C : Container K V} {s₀ : C.block.State} {n : Nat} {l l' : List (SEv K V)}
    {s s' : SState K V C.block.State} (h : SRun C (.new s₀ n) l s) {i j : Nat} {m : Mode} {c r}
    (hi : s.threads[i]? = some (.cell m)) (hj : s.threads[j]? = some .idle)
    (h' : SRun C s l' s') (hkeep : ∀ e ∈ l', e.thread ≠ i) (he : .executed j c r ∈ l') :
    (∀ x, c ≠ .op (.push x)) ∧ (∀ x, c ≠ .op (.pop x)) ∧ (∀ k, c ≠ .op (.take k)) ∧
    (∀ k, c ≠ .getMut k) ∧ m ≠ .excl := by
  have hinv := h.inv (new_inv s₀ n)
  have key : s'.threads[i]? = some (.cell m) ∧ (∃ p', s'.threads[j]? = some p' ∧ Behind m p') ∧
      ∀ c r, .executed j c r ∈ l' → m = .shared ∧ c.mode = .shared := by
    clear he
    induction h' with
    | nil => exact ⟨hi, ⟨_, hj, trivial⟩, by simp⟩
    | @snoc l1 s1 s2 k a e hr hs ih =>
      obtain ⟨h1, ⟨p, h2, h3⟩, h4⟩ := ih (fun e he => hkeep e (by simp [he]))
      obtain ⟨g1, g2, g3⟩ := step_behind (hr.inv hinv) h1 h2 h3 hs (hkeep e (by simp))
      refine ⟨g1, g2, ?_⟩
      intro c r he
      rcases List.mem_append.1 he with he | he
      · exact h4 c r he
      · exact g3 c r (by simpa using (List.mem_singleton.1 he).symm)
  obtain ⟨rfl, hm⟩ := key.2.2 c r he
  refine ⟨?_, ?_, ?_, ?_, by simp⟩
  all_goals rintro x rfl
  all_goals cases hm

/-- Thread 0 pushes (1, 7) and gets key 1; thread 1 flushes while thread 0 holds its cell. -/
def flushUnderCell : List (Nat × SAct Nat Nat) :=
  [(0, .call (.op (.push [(1, 7)]))), (0, .go), (0, .go), (0, .go), (0, .go), (0, .go),
   (0, .call (.get 1)), (0, .go), (0, .go), (0, .go), (0, .go),
   (1, .call (.op .flush)), (1, .go), (1, .go)]

/-- `flush` empties the container under a live cell. -/
theorem C55_dangling : ∃ l s s' r, SRun arr (.new (Array.new 2) 2) l s ∧
    (∃ m, s.threads[0]? = some (.cell m)) ∧ sstep arr s 1 .go = some (s', .executed 1 (.op .flush) r) ∧
    s.cont.values = [(1, 7)] ∧ s'.cont.values = [] := by
  have h1 : (play arr (.new (Array.new 2) 2) flushUnderCell).any (fun x =>
      (match x.2.threads[0]? with | some (.cell _) => true | _ => false) &&
      (match sstep arr x.2 1 .go with
        | some (s', .executed 1 (.op .flush) _) => decide (s'.cont.values = [])
        | _ => false) && decide (x.2.cont.values = [(1, 7)])) = true := by
    decide +kernel
  cases hp : play arr (.new (Array.new 2) 2) flushUnderCell with
  | none => rw [hp] at h1; simp at h1
  | some x =>
    obtain ⟨l, s⟩ := x
    rw [hp] at h1
    simp only [Option.any_some, Bool.and_eq_true, decide_eq_true_eq] at h1
    obtain ⟨⟨h1, h2⟩, h3⟩ := h1
    split at h1
    · split at h2
      · rename_i m hm _ s' r hs
        exact ⟨l, s, s', r, by simpa using play_run .nil hp, ⟨m, hm⟩, hs, h3, by simpa using h2⟩
      · simp at h2
    · simp at h1

/-- The hypotheses of `C55_partial_waits` are met: thread 1 is idle when thread 0 has its cell, then calls
`pop`, which spins, while the `flush` of thread 2 goes through. -/
theorem C55_waits_witness : ∃ l s l' s' r, SRun arr (.new (Array.new 2) 3) l s ∧
    (∃ m, s.threads[0]? = some (.cell m)) ∧ s.threads[1]? = some .idle ∧ s.threads[2]? = some .idle ∧
    SRun arr s l' s' ∧ (∀ e ∈ l', e.thread ≠ 0) ∧ .called 1 (.op (.pop 1)) ∈ l' ∧
    sstep arr s' 1 .go = none ∧ .executed 2 (.op .flush) r ∈ l' := by
  have h1 : (play arr (.new (Array.new 2) 3) (flushUnderCell.take 11)).any (fun x =>
      (match x.2.threads[0]? with | some (.cell _) => true | _ => false) &&
      (match x.2.threads[1]? with | some .idle => true | _ => false) &&
      (match x.2.threads[2]? with | some .idle => true | _ => false) &&
      (match play arr x.2 [(1, .call (.op (.pop 1))), (2, .call (.op .flush)), (2, .go), (2, .go),
          (2, .go)] with
        | some ([.called 1 (.op (.pop 1)), .called 2 (.op .flush), .silent 2, .silent 2,
            .executed 2 (.op .flush) _], s') => (sstep arr s' 1 .go).isNone
        | _ => false)) = true := by
    decide +kernel
  cases hp : play arr (.new (Array.new 2) 3) (flushUnderCell.take 11) with
  | none => rw [hp] at h1; simp at h1
  | some x =>
    obtain ⟨l, s⟩ := x
    rw [hp] at h1
    simp only [Option.any_some, Bool.and_eq_true] at h1
    obtain ⟨⟨⟨h1, h2⟩, h3⟩, h4⟩ := h1
    split at h1
    · rename_i m hm
      split at h2
      · rename_i hm1
        split at h3
        · rename_i hm2
          split at h4
          · rename_i r s' hpl
            refine ⟨l, s, _, s', r, by simpa using play_run .nil hp, ⟨m, hm⟩, hm1, hm2,
              by simpa using play_run .nil hpl, ?_, by simp, by simpa using h4, by simp⟩
            simp [SEv.thread]
          · simp at h4
        · simp at h3
      · simp at h2
    · simp at h1

theorem C55_false : ¬ C55_full := by
  intro h
  obtain ⟨l, s, s', r, hr, ⟨m, hm⟩, hs, h1, h2⟩ := C55_dangling
  have := (h Nat Nat arr (Array.new 2) 2 l s s' 0 1 m .go _ r arr_readOnly hr (by decide) hm hs).1
  rw [this, h1] at h2
  simp at h2

end Byoc.SequentialProps
