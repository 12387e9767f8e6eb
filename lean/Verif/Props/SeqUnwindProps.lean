import Verif.Model.SeqUnwind
import Verif.Props.UnwindProps

/-!
# C121: a `Sequential` when functions of the user panic

Any number of handles on one `Sequential`, over any container; calls one after the other, cells held as the users like;
functions of the user panic when they like, and the users catch the panics and go on.
-/

set_option linter.unusedSectionVars false

namespace Byoc
namespace SeqUnwindProps

open Lock (Mode)
open Byoc.Unwind Byoc.Seq Byoc.SeqUnwind UnwindProps

variable {K V S : Type}

/-! ## The specification -/

section Spec

variable (cap size : S → Nat) (U : Unwinding S K V) (G : Accesses S K V)

/-- What the call does on the container itself, when nobody shares it. -/
def alone (s : S) (w : Fates) : SCall K V → Option (SObs K V) × S
  | .capacity => (some (.num (cap s)), s)
  | .size => (some (.num (size s)), s)
  | .op o => ((attempt U s w o).1.map .obs, (attempt U s w o).2)
  | .get k => (((G.get k).run w s).1.map .cell, ((G.get k).run w s).2.2)
  | .getMut k => (((G.getMut k).run w s).1.map .cell, ((G.getMut k).run w s).2.2)

/-- `capacity`, `size` and `contains`. -/
def Looks : SCall K V → Prop
  | .capacity => True
  | .size => True
  | .op (.contains _) => True
  | _ => False

/-- The calls that need the `Sequential` for themselves. -/
def Exclusively : SCall K V → Prop
  | .op (.take _) => True
  | .op (.pop _) => True
  | .op (.push _) => True
  | .getMut _ => True
  | _ => False

/-- A history and what became of its calls. -/
abbrev Log (K V : Type) := List (Event K V × Option (Outcome K V))

/-- The history `l` from a new `Sequential` over `s₀`. -/
def log (s : State S) (l : List (Event K V)) : Log K V := l.zip (steps cap size U G s l).1

/-- The state after the history `l`. -/
def after (s : State S) (l : List (Event K V)) : State S := (steps cap size U G s l).2

/-- The container after the calls of a log, if they are made on the container itself; calls that wait do nothing. -/
def content (s : S) : Log K V → S
  | [] => s
  | (.call c w _, some (.returns _)) :: l => content (alone cap size U G s w c).2 l
  | (.call c w _, some .panics) :: l => content (alone cap size U G s w c).2 l
  | _ :: l => content s l

/-- The cells held: those that calls returned and that were not dropped. -/
def held (h : List Mode) : Log K V → List Mode
  | [] => h
  | (.call (.get _) _ _, some (.returns (.cell (some _)))) :: l => held (.shared :: h) l
  | (.call (.getMut _) _ _, some (.returns (.cell (some _)))) :: l => held (.excl :: h) l
  | (.drop m _, _) :: l => held (h.erase m) l
  | _ :: l => held h l

/-- A call that panics is `capacity`, `size` or `contains`, and its handle survives; and no cell is dropped by a thread
that unwinds. -/
def Harmless (l : Log K V) : Prop :=
  (∀ c w d, (Event.call c w d, some Outcome.panics) ∈ l → Looks c ∧ d = false) ∧
    ∀ m o, (Event.drop m true, o) ∉ l

/-- A cell that is held excludes the call: a cell of `get_mut` excludes every call, a cell of `get` those that need the
`Sequential` for themselves. -/
def Excluded (h : List Mode) (c : SCall K V) : Prop := Mode.excl ∈ h ∨ Exclusively c ∧ h ≠ []

/-- What is expected of a call when the cells `h` are held and the container is `s`: it waits exactly if a cell excludes
it, and otherwise does what it does on the container itself. -/
def AsAlone (h : List Mode) (s : S) (c : SCall K V) (w : Fates) (o : Outcome K V) : Prop :=
  (Excluded h c → o = .waits) ∧
    (¬ Excluded h c → o = match (alone cap size U G s w c).1 with
      | some r => .returns r
      | none => .panics)

/-- The results of calls that do not reach the container: a panic, waiting, an empty vector for a `push`, nothing for an
access. -/
def Lost (c : SCall K V) (o : Outcome K V) : Prop :=
  o = .panics ∨ o = .waits ∨ (∃ l, c = .op (.push l)) ∧ o = .returns (.obs (.many [])) ∨
    (∃ k, c = .get k ∨ c = .getMut k) ∧ o = .returns (.cell none)

end Spec

variable {cap size : S → Nat} {U : Unwinding S K V} {G : Accesses S K V}

theorem inner_alone (s : S) (w : Fates) (c : SCall K V) : inner cap size U G s w c = alone cap size U G s w c := by
  cases c with
  | op o => cases o <;> simp [inner, alone, attempt, Function.comp_def]
  | _ => rfl

/-! ## The invariant of harmless histories -/

/-- The lock is held by the cells and by nobody else. -/
structure Good (s : State S) : Prop where
  oPoison : s.oPoison = false
  iPoison : s.iPoison = false
  writer : s.writer = true ↔ Mode.excl ∈ s.cells
  readers : s.readers = s.cells.count .shared
  single : Mode.excl ∈ s.cells → s.cells = [.excl]

theorem Good.new (s₀ : S) : Good (State.new s₀) := by
  constructor <;> simp [State.new]

theorem blocked_iff {s : State S} (h : Good s) (c : SCall K V) :
    s.blocked c.mode = true ↔ Excluded s.cells c := by
  have key : s.writer = true ∨ s.readers ≠ 0 ↔ s.cells ≠ [] := by
    constructor
    · rintro (h1 | h1)
      · intro e; have := h.writer.1 h1; simp [e] at this
      · intro e; exact h1 (by rw [h.readers, e]; rfl)
    · intro h1
      obtain ⟨m, ms, e⟩ := List.exists_cons_of_ne_nil h1
      cases m with
      | excl => exact .inl (h.writer.2 (by simp [e]))
      | shared => right; rw [h.readers, e]; simp
  have imp : Mode.excl ∈ s.cells → s.cells ≠ [] := fun h1 e => by simp [e] at h1
  unfold Excluded
  have e1 : s.blocked .shared = true ↔ Mode.excl ∈ s.cells := h.writer
  have e2 : s.blocked .excl = true ↔ s.cells ≠ [] := by
    rw [← key]; simp [State.blocked]
  cases c with
  | op o => cases o <;> simp [SCall.mode, Exclusively, e1, e2] <;> tauto
  | _ => simp [SCall.mode, Exclusively, e1, e2] <;> tauto

/-- A harmless event of a good state. -/
theorem Good.step {s : State S} (h : Good s) (c : SCall K V) (w : Fates) (d : Bool) :
    ∃ o s', step cap size U G s (.call c w d) = (some o, s') ∧
      AsAlone cap size U G s.cells s.cont c w o ∧
      s'.cont = content cap size U G s.cont [(.call c w d, some o)] ∧
      s'.cells = held s.cells [(.call c w d, some o)] ∧
      ((o = .panics → Looks c ∧ d = false) → Good s') := by
  by_cases hb : s.blocked c.mode = true
  · refine ⟨.waits, s, ?_, ?_, rfl, ?_, fun _ => h⟩
    · simp [SeqUnwind.step, call, h.oPoison, hb]
    · exact ⟨fun _ => rfl, fun hn => absurd ((blocked_iff h c).1 hb) hn⟩
    · cases c <;> rfl
  · have hn := fun e => hb ((blocked_iff h c).2 e)
    have hb' : s.blocked c.mode = false := by simpa using hb
    have hi : (s.acquire c.holding).iPoison = false := by
      rcases e : c.holding with _ | _ | _ <;> simp [State.acquire, h.iPoison]
    have hcont : (s.acquire c.holding).cont = s.cont := by
      rcases e : c.holding with _ | _ | _ <;> simp [State.acquire]
    rcases ha : alone cap size U G s.cont w c with ⟨o, t⟩
    cases o with
    | none =>
      refine ⟨.panics, { s.acquire c.holding with cont := t, iPoison := c.write }.unwound d, ?_, ?_, ?_, ?_, ?_⟩
      · simp [SeqUnwind.step, call, h.oPoison, hb', hi, hcont, inner_alone, ha]
      · exact ⟨fun e => absurd e hn, fun _ => by rw [ha]⟩
      · simp [State.unwound, content, ha]
      · rcases e : c.holding with _ | _ | _ <;> cases c <;> simp [State.unwound, State.acquire, held]
      · intro hp
        obtain ⟨hl, rfl⟩ := hp rfl
        have e1 : c.holding = none ∧ c.write = false := by
          cases c with
          | op o => cases o <;> first | exact ⟨rfl, rfl⟩ | exact hl.elim
          | get _ => exact hl.elim
          | getMut _ => exact hl.elim
          | _ => exact ⟨rfl, rfl⟩
        simp only [e1, State.acquire, State.unwound]
        exact ⟨by simp [h.oPoison], rfl, h.writer, h.readers, h.single⟩
    | some r =>
      have hstep : ∀ s', (match r with
          | .cell (some _) => (Outcome.returns r, { { s.acquire c.holding with cont := t } with
              cells := c.mode :: (s.acquire c.holding).cells })
          | _ => (.returns r, State.release { s.acquire c.holding with cont := t } c.holding)) = (Outcome.returns r, s') →
          SeqUnwind.step cap size U G s (.call c w d) = (some (.returns r), s') := by
        intro s' hs
        simp only [SeqUnwind.step, call, h.oPoison, hb', hi, hcont, inner_alone, ha, if_false, Bool.false_eq_true]
        split at hs <;> simp_all
      have hA : AsAlone cap size U G s.cells s.cont c w (.returns r) := by
        exact ⟨fun e => absurd e hn, fun _ => by rw [ha]⟩
      have hC : content cap size U G s.cont [(.call c w d, some (.returns r))] = t := by
        simp [content, ha]
      have none_case : (∀ v, r ≠ .cell (some v)) →
          Good (State.release { s.acquire c.holding with cont := t } c.holding) ∧
          (State.release { s.acquire c.holding with cont := t } c.holding).cont = t ∧
          (State.release { s.acquire c.holding with cont := t } c.holding).cells = s.cells := by
        intro _
        have hw : s.blocked c.mode = false := hb'
        have e : c.holding = none ∨ c.holding = some c.mode := by
          simp only [SCall.holding]; split <;> simp
        rcases e with e | e
        · rw [e]; exact ⟨⟨h.oPoison, h.iPoison, h.writer, h.readers, h.single⟩, rfl, rfl⟩
        · rw [e]
          cases hm : c.mode with
          | shared =>
            simp only [State.acquire, State.release]
            exact ⟨⟨h.oPoison, h.iPoison, h.writer, by simpa using h.readers, h.single⟩, by simp⟩
          | excl =>
            rw [hm] at hw
            simp [State.blocked] at hw
            simp only [State.acquire, State.release]
            refine ⟨⟨h.oPoison, h.iPoison, ?_, h.readers, h.single⟩, by simp⟩
            rw [← h.writer, hw.1]
      have other : (∀ v, r ≠ .cell (some v)) → ∃ o s', SeqUnwind.step cap size U G s (.call c w d) = (some o, s') ∧
          AsAlone cap size U G s.cells s.cont c w o ∧
          s'.cont = content cap size U G s.cont [(.call c w d, some o)] ∧
          s'.cells = held s.cells [(.call c w d, some o)] ∧
          ((o = .panics → Looks c ∧ d = false) → Good s') := by
        intro hr
        obtain ⟨g1, g2, g3⟩ := none_case hr
        refine ⟨_, _, hstep _ ?_, hA, g2.trans hC.symm, ?_, fun _ => g1⟩
        · split
          · rename_i v; exact absurd rfl (hr v)
          · rfl
        · rw [g3]
          cases c <;> first | rfl | (cases r <;> first | rfl | (rename_i v; cases v <;> first | rfl | exact absurd rfl (hr _)))
      by_cases hr : ∀ v, r ≠ .cell (some v)
      · exact other hr
      · push Not at hr
        obtain ⟨v, rfl⟩ := hr
        have hc : (∃ k, c = .get k) ∨ ∃ k, c = .getMut k := by
          cases c with
          | op o => simp [alone] at ha
          | capacity => simp [alone] at ha
          | size => simp [alone] at ha
          | get k => exact .inl ⟨k, rfl⟩
          | getMut k => exact .inr ⟨k, rfl⟩
        rcases hc with ⟨k, rfl⟩ | ⟨k, rfl⟩
        · refine ⟨_, _, hstep _ rfl, hA, hC.symm, rfl, fun _ => ?_⟩
          have hx : Mode.excl ∉ s.cells := fun e => hn (.inl e)
          refine ⟨h.oPoison, h.iPoison, ?_, ?_, ?_⟩
          · simp [State.acquire, SCall.holding, SCall.keeps, SCall.mode, h.writer]
          · simp [State.acquire, SCall.holding, SCall.keeps, SCall.mode, h.readers]
          · simp [State.acquire, SCall.holding, SCall.keeps, SCall.mode, hx]
        · refine ⟨_, _, hstep _ rfl, hA, hC.symm, rfl, fun _ => ?_⟩
          have hx : s.cells = [] := by
            by_contra e; exact hn (.inr ⟨trivial, e⟩)
          refine ⟨h.oPoison, h.iPoison, ?_, ?_, ?_⟩
          · simp [State.acquire, SCall.holding, SCall.keeps, SCall.mode]
          · simp [State.acquire, SCall.holding, SCall.keeps, SCall.mode, h.readers, hx]
          · simp [State.acquire, SCall.holding, SCall.keeps, SCall.mode, hx]

theorem Good.drop {s : State S} (h : Good s) (m : Mode) :
    ∃ s', SeqUnwind.step cap size U G s (.drop m false : Event K V) = (none, s') ∧ s'.cont = s.cont ∧
      s'.cells = s.cells.erase m ∧ Good s' := by
  by_cases hm : m ∈ s.cells
  · refine ⟨_, by simp only [SeqUnwind.step, if_pos hm]; rfl, ?_, ?_, ?_⟩
    · cases m <;> rfl
    · cases m <;> rfl
    · cases m with
      | shared =>
        have hx : Mode.excl ∉ s.cells := fun e => by rw [h.single e] at hm; simp at hm
        have hx' : Mode.excl ∉ s.cells.erase .shared := fun e => hx (List.mem_of_mem_erase e)
        refine ⟨by simp [State.release, State.unwound, h.oPoison], h.iPoison, ?_, ?_, fun e => absurd e hx'⟩
        · simp only [State.release, State.unwound, hx', iff_false]
          exact fun e => hx (h.writer.1 e)
        · simp [State.release, State.unwound, h.readers]
      | excl =>
        have hs := h.single hm
        refine ⟨by simp [State.release, State.unwound, h.oPoison], h.iPoison, ?_, ?_, ?_⟩
        · simp [State.release, State.unwound, hs]
        · simp [State.release, State.unwound, h.readers, hs]
        · simp [State.release, State.unwound, hs]
  · exact ⟨s, by simp only [SeqUnwind.step, if_neg hm], rfl, (List.erase_of_not_mem hm).symm, h⟩

theorem content_cons (s : S) (x) (l : Log K V) :
    content cap size U G s (x :: l) = content cap size U G (content cap size U G s [x]) l := by
  rcases x with ⟨c | m, o⟩
  · rcases o with _ | _ | _ | _ <;> rfl
  · rfl

theorem held_cons (h : List Mode) (x) (l : Log K V) : held h (x :: l) = held (held h [x]) l := by
  rcases x with ⟨⟨c, w, d⟩ | m, o⟩
  · cases c <;> rcases o with _ | (_ | _ | _ | _) | _ | _ <;> rfl
  · rfl

theorem log_cons (s : State S) (e : Event K V) (l : List (Event K V)) :
    log cap size U G s (e :: l) = (e, (SeqUnwind.step cap size U G s e).1) ::
      log cap size U G (SeqUnwind.step cap size U G s e).2 l := rfl

theorem good_after : ∀ (l : List (Event K V)) (s : State S), Good s → Harmless (log cap size U G s l) →
    Good (after cap size U G s l) ∧
      (after cap size U G s l).cont = content cap size U G s.cont (log cap size U G s l) ∧
      (after cap size U G s l).cells = held s.cells (log cap size U G s l)
  | [], s, h, _ => ⟨h, rfl, rfl⟩
  | e :: l, s, h, hh => by
    rw [log_cons] at hh ⊢
    rw [content_cons, held_cons]
    have hrest : ∀ s', (SeqUnwind.step cap size U G s e).2 = s' → Harmless (log cap size U G s' l) := by
      rintro s' rfl
      exact ⟨fun c w d hm => hh.1 c w d (.tail _ hm), fun m o hm => hh.2 m o (.tail _ hm)⟩
    have hafter : after cap size U G s (e :: l) = after cap size U G (SeqUnwind.step cap size U G s e).2 l := rfl
    cases e with
    | call c w d =>
      obtain ⟨o, s', h1, -, h3, h4, h5⟩ := h.step (cap := cap) (size := size) (U := U) (G := G) c w d
      have hg : Good s' := h5 fun ho => hh.1 c w d (by rw [h1, ho]; exact .head _)
      obtain ⟨g1, g2, g3⟩ := good_after l s' hg (hrest s' (by rw [h1]))
      rw [hafter]
      simp only [h1]
      rw [← h3, ← h4]
      exact ⟨g1, g2, g3⟩
    | drop m p =>
      cases p with
      | true => exact absurd (.head _) (hh.2 m _)
      | false =>
        obtain ⟨s', h1, h2, h3, h4⟩ := h.drop (cap := cap) (size := size) (U := U) (G := G) m
        obtain ⟨g1, g2, g3⟩ := good_after l s' h4 (hrest s' (by rw [h1]))
        rw [hafter]
        simp only [h1]
        have e1 : content cap size U G s.cont [((.drop m false : Event K V), none)] = s'.cont := h2.symm
        have e2 : held s.cells [((.drop m false : Event K V), none)] = s'.cells := h3.symm
        rw [e1, e2]
        exact ⟨g1, g2, g3⟩

/-! ## C121: as long as only `capacity`, `size` and `contains` panic -/

/-- **C121 (partial).** After a history in which only `capacity`, `size` and `contains` panicked, and no handle and no cell
was dropped by a thread that unwinds, a call on any handle waits exactly if a cell that is held excludes it; otherwise it
returns what it returns on the container itself (or panics as it does there), of which the content is what the calls so
far made of it.  Missing: histories with other panics. -/
theorem C121_partial (s₀ : S) (l : List (Event K V)) (hl : Harmless (log cap size U G (.new s₀) l))
    (c : SCall K V) (w : Fates) (d : Bool) :
    ∃ o s', SeqUnwind.step cap size U G (after cap size U G (.new s₀) l) (.call c w d) = (some o, s') ∧
      AsAlone cap size U G (held [] (log cap size U G (.new s₀) l))
        (content cap size U G s₀ (log cap size U G (.new s₀) l)) c w o ∧
      s'.cont = content cap size U G s₀ (log cap size U G (.new s₀) l ++ [(.call c w d, some o)]) := by
  obtain ⟨g1, g2, g3⟩ := good_after l _ (Good.new s₀) hl
  obtain ⟨o, s', h1, h2, h3, -⟩ := g1.step (cap := cap) (size := size) (U := U) (G := G) c w d
  rw [g2, g3] at h2
  refine ⟨o, s', h1, h2, ?_⟩
  rw [h3, g2]
  have hx : (State.new s₀).cont = s₀ := rfl
  rw [hx]
  generalize s₀ = x at *
  generalize log cap size U G (.new _) l = y
  have : ∀ (y z : Log K V) (x : S), content cap size U G x (y ++ z) = content cap size U G (content cap size U G x y) z := by
    intro y
    induction y with
    | nil => intros; rfl
    | cons a y ih => intro z x; rw [List.cons_append, content_cons, ih, content_cons x a y]
  rw [← this]

/-- What the caller sees of an operation on the container itself. -/
def asOutcome : Option (Obs K V) → Outcome K V
  | some r => .returns (.obs r)
  | none => .panics

/-- **C121 (histories, partial).** Operations on any handles of a `Sequential`, of which only `contains` panics, return and
panic as on the container itself, and leave it as there (see C113 for what this is). -/
theorem C121_history_partial (s₀ : S) (l : List (Op K V × Fates))
    (hl : ∀ op w, ((op, w), none) ∈ l.zip (attempts U s₀ l).1 → ∃ k, op = .contains k) :
    (steps cap size U G (.new s₀) (l.map fun p => .call (.op p.1) p.2 false)).1 =
        (attempts U s₀ l).1.map (fun o => some (asOutcome o)) ∧
      (steps cap size U G (.new s₀) (l.map fun p => .call (.op p.1) p.2 false)).2.cont = (attempts U s₀ l).2 := by
  suffices h : ∀ s : State S, Good s → s.cells = [] →
      (∀ op w, ((op, w), none) ∈ l.zip (attempts U s.cont l).1 → ∃ k, op = .contains k) →
      (steps cap size U G s (l.map fun p => .call (.op p.1) p.2 false)).1 =
        (attempts U s.cont l).1.map (fun o => some (asOutcome o)) ∧
      (steps cap size U G s (l.map fun p => .call (.op p.1) p.2 false)).2.cont = (attempts U s.cont l).2 from
    h (.new s₀) (Good.new s₀) rfl hl
  clear hl
  induction l with
  | nil => intro s _ _ _; exact ⟨rfl, rfl⟩
  | cons p l ih =>
    obtain ⟨op, w⟩ := p
    intro s hg hc hl
    obtain ⟨o, s', h1, h2, h3, h4, h5⟩ := hg.step (cap := cap) (size := size) (U := U) (G := G) (.op op) w false
    have hn : ¬ Excluded s.cells (.op op : SCall K V) := by simp [Excluded, hc]
    have ho : o = asOutcome (attempt U s.cont w op).1 := by
      rw [h2.2 hn]
      simp only [alone]
      cases (attempt U s.cont w op).1 <;> rfl
    have hcont : s'.cont = (attempt U s.cont w op).2 := by
      rw [h3, ho]
      cases (attempt U s.cont w op).1 <;> rfl
    have hcells : s'.cells = [] := by
      rw [h4, hc, ho]
      cases (attempt U s.cont w op).1 <;> rfl
    have hgood : Good s' := by
      refine h5 fun e => ⟨?_, rfl⟩
      rw [e] at ho
      have : (attempt U s.cont w op).1 = none := by
        cases ha : (attempt U s.cont w op).1 with
        | none => rfl
        | some r => rw [ha] at ho; simp [asOutcome] at ho
      obtain ⟨k, rfl⟩ := hl op w (by
        show _ ∈ _ :: _
        rw [← this]
        exact .head _)
      trivial
    obtain ⟨i1, i2⟩ := ih s' hgood hcells (fun op' w' hm => hl op' w' (.tail _ (by rw [← hcont]; exact hm)))
    have e1 : steps cap size U G s ((op, w) :: l |>.map fun p => .call (.op p.1) p.2 false) =
        (some o :: (steps cap size U G s' (l.map fun p => .call (.op p.1) p.2 false)).1,
          (steps cap size U G s' (l.map fun p => .call (.op p.1) p.2 false)).2) := by
      simp only [List.map_cons, steps, h1]
    have e2 : attempts U s.cont ((op, w) :: l) = ((attempt U s.cont w op).1 :: (attempts U s'.cont l).1,
        (attempts U s'.cont l).2) := by
      rw [hcont]; rfl
    rw [e1, e2]
    exact ⟨by simp [i1, ho], i2⟩

/-! ## After any other panic nothing is reached any more -/

/-- No later event changes the content or reaches it. -/
theorem dead_steps : ∀ (l : List (Event K V)) (s : State S), (s.iPoison = true ∨ s.oPoison = true) →
    (after cap size U G s l).cont = s.cont ∧
      ∀ c w d o, (Event.call c w d, some o) ∈ log cap size U G s l → Lost c o
  | [], s, _ => ⟨rfl, by simp [log]⟩
  | e :: l, s, h => by
    have key : ((SeqUnwind.step cap size U G s e).2.iPoison = true ∨ (SeqUnwind.step cap size U G s e).2.oPoison = true) ∧
        (SeqUnwind.step cap size U G s e).2.cont = s.cont ∧
        ∀ c w d o, e = .call c w d → (SeqUnwind.step cap size U G s e).1 = some o → Lost c o := by
      cases e with
      | drop m p =>
        by_cases hm : m ∈ s.cells
        · simp only [SeqUnwind.step, if_pos hm]
          refine ⟨?_, ?_, by simp⟩
          · cases m <;> simp [State.release, State.unwound] <;> rcases h with h | h <;> simp [h]
          · cases m <;> rfl
        · simp only [SeqUnwind.step, if_neg hm]
          exact ⟨h, trivial, by simp⟩
      | call c w d =>
        have hcont : (s.acquire c.holding).cont = s.cont := by
          rcases e : c.holding with _ | _ | _ <;> simp [State.acquire]
        have hi : (s.acquire c.holding).iPoison = s.iPoison := by
          rcases e : c.holding with _ | _ | _ <;> simp [State.acquire]
        by_cases ho : s.oPoison = true
        · cases hp : c.onPoison with
          | none =>
            simp only [SeqUnwind.step, call, ho, if_true, hp]
            refine ⟨.inr (by simp [State.unwound, ho]), rfl, ?_⟩
            rintro c' w' d' o - h1
            cases h1
            exact .inl rfl
          | some r =>
            simp only [SeqUnwind.step, call, ho, if_true, hp]
            refine ⟨.inr trivial, trivial, ?_⟩
            intro c' w' d' o h1 h2
            cases h1; cases h2
            cases c with
            | op o =>
              cases o <;> simp [SCall.onPoison] at hp
              subst hp
              exact .inr (.inr (.inl ⟨⟨_, rfl⟩, rfl⟩))
            | get k => cases hp; exact .inr (.inr (.inr ⟨⟨k, .inl rfl⟩, rfl⟩))
            | getMut k => cases hp; exact .inr (.inr (.inr ⟨⟨k, .inr rfl⟩, rfl⟩))
            | _ => simp [SCall.onPoison] at hp
        · have hi' : s.iPoison = true := h.resolve_right ho
          have ho : s.oPoison = false := by simpa using ho
          by_cases hb : s.blocked c.mode = true
          · simp only [SeqUnwind.step, call, ho, hb, if_true, Bool.false_eq_true, if_false]
            refine ⟨.inl hi', trivial, ?_⟩
            rintro c' w' d' o - h1
            cases h1
            exact .inr (.inl rfl)
          · simp only [SeqUnwind.step, call, ho, hb, Bool.false_eq_true, if_false, hi, hi', if_true]
            refine ⟨.inl (by simp [State.unwound, hi, hi']), hcont, ?_⟩
            rintro c' w' d' o - h1
            cases h1
            exact .inl rfl
    obtain ⟨k1, k2, k3⟩ := key
    obtain ⟨g1, g2⟩ := dead_steps l _ k1
    refine ⟨?_, fun c w d o hm => ?_⟩
    · exact Eq.trans g1 k2
    · rw [log_cons, List.mem_cons] at hm
      rcases hm with hm | hm
      · injection hm with h1 h2
        exact k3 c w d o h1.symm h2.symm
      · exact g2 c w d o hm

/-- A panic of a call other than `capacity`, `size` and `contains` poisons the container. -/
theorem poisons {s s' : State S} {c : SCall K V} {w : Fates} {d : Bool} (hc : ¬ Looks c)
    (h : SeqUnwind.step cap size U G s (.call c w d) = (some .panics, s')) : s'.iPoison = true ∨ s'.oPoison = true := by
  have hi : (s.acquire c.holding).iPoison = s.iPoison := by
    rcases e : c.holding with _ | _ | _ <;> simp [State.acquire]
  by_cases ho : s.oPoison = true
  · simp only [SeqUnwind.step, call, ho, if_true] at h
    split at h
    · simp at h
    · cases h; right; simp [State.unwound, ho]
  · simp only [SeqUnwind.step, call, ho, Bool.false_eq_true, if_false] at h
    split at h
    · simp at h
    · split at h
      · rename_i h1
        simp only [Prod.mk.injEq] at h
        rw [← h.2]
        left
        simpa [State.unwound] using h1
      · split at h
        · simp only [Prod.mk.injEq] at h
          rw [← h.2]
          left
          cases c with
          | op o => cases o <;> first | rfl | exact absurd trivial hc
          | get _ => rfl
          | getMut _ => rfl
          | _ => exact absurd trivial hc
        · split at h <;> simp at h

/-- **C121 (after a panic, partial).** Once a call other than `capacity`, `size` and `contains` panicked, no call on any
handle reaches the container any more, whatever the users do: each panics, waits, or does nothing (a `push` returns an
empty vector and its elements are lost).  The elements in the container stay there for ever. -/
theorem C121_dead (s₀ : S) (l : List (Event K V)) (c : SCall K V) (hc : ¬ Looks c) (w : Fates) (d : Bool) (s : State S)
    (h : SeqUnwind.step cap size U G (after cap size U G (.new s₀) l) (.call c w d) = (some .panics, s))
    (l' : List (Event K V)) :
    (after cap size U G s l').cont = s.cont ∧
      ∀ c' w' d' o, (Event.call c' w' d', some o) ∈ log cap size U G s l' → Lost c' o :=
  dead_steps l' s (poisons hc h)

/-- **C121 (`push` and `get_mut`).** If a `push` or a `get_mut` panics, and the handle survives, every later call on every
handle waits for ever. -/
theorem C121_push (s₀ : S) (l : List (Event K V)) (hl : Harmless (log cap size U G (.new s₀) l))
    (c : SCall K V) (hc : (∃ es, c = .op (.push es)) ∨ ∃ k, c = .getMut k) (w : Fates) (s : State S)
    (h : SeqUnwind.step cap size U G (after cap size U G (.new s₀) l) (.call c w false) = (some .panics, s))
    (l' : List (Event K V)) :
    ∀ c' w' d' o, (Event.call c' w' d', some o) ∈ log cap size U G s l' → o = .waits := by
  obtain ⟨g1, -, -⟩ := good_after l _ (Good.new s₀) hl
  generalize after cap size U G (.new s₀) l = t at *
  obtain ⟨hm, hh⟩ : c.mode = .excl ∧ c.holding = some .excl := by
    rcases hc with ⟨es, rfl⟩ | ⟨k, rfl⟩ <;> exact ⟨rfl, rfl⟩
  have hs : s.writer = true ∧ s.oPoison = false ∧ s.cells = [] := by
    have hb : t.blocked c.mode = false := by
      by_contra hb
      simp only [SeqUnwind.step, call, g1.oPoison, Bool.false_eq_true, if_false, eq_true_of_ne_false hb, if_true] at h
      simp at h
    have he : t.cells = [] := by
      by_contra e
      have hx : Excluded t.cells c := .inr ⟨by rcases hc with ⟨es, rfl⟩ | ⟨k, rfl⟩ <;> trivial, e⟩
      rw [(blocked_iff g1 c).2 hx] at hb
      simp at hb
    simp only [SeqUnwind.step, call, g1.oPoison, hb, Bool.false_eq_true, if_false, hh, State.acquire, g1.iPoison] at h
    split at h
    · simp only [Prod.mk.injEq] at h
      rw [← h.2]
      exact ⟨rfl, by simp [State.unwound], he⟩
    · split at h <;> simp at h
  clear h
  induction l' generalizing s with
  | nil => simp [log]
  | cons e l' ih =>
    obtain ⟨h1, h2, h3⟩ := hs
    intro c' w' d' o hm'
    rw [log_cons, List.mem_cons] at hm'
    cases e with
    | drop m p =>
      have e1 : SeqUnwind.step cap size U G s (.drop m p : Event K V) = (none, s) := by
        simp [SeqUnwind.step, h3]
      rw [e1] at hm'
      rcases hm' with hm' | hm'
      · simp at hm'
      · exact ih s ⟨h1, h2, h3⟩ _ _ _ _ hm'
    | call c1 w1 d1 =>
      have e1 : SeqUnwind.step cap size U G s (.call c1 w1 d1) = (some .waits, s) := by
        have : s.blocked c1.mode = true := by cases c1.mode <;> simp [State.blocked, h1]
        simp [SeqUnwind.step, call, h2, this]
      rw [e1] at hm'
      rcases hm' with hm' | hm'
      · injection hm' with _ h; injection h
      · exact ih s ⟨h1, h2, h3⟩ _ _ _ _ hm'

/-- **C121 (`flush` and `get`).** If a `flush` or a `get` panics, then, as long as the handles survive, every later `take`,
`pop`, `push` and `get_mut` on every handle waits for ever, and every other call panics. -/
theorem C121_flush (s₀ : S) (l : List (Event K V)) (hl : Harmless (log cap size U G (.new s₀) l))
    (c : SCall K V) (hc : c = .op .flush ∨ ∃ k, c = .get k) (w : Fates) (s : State S)
    (h : SeqUnwind.step cap size U G (after cap size U G (.new s₀) l) (.call c w false) = (some .panics, s))
    (l' : List (Event K V)) (hd : ∀ e ∈ l', (∀ c w, e ≠ .call c w true) ∧ ∀ m, e ≠ .drop m true) :
    ∀ c' w' d' o, (Event.call c' w' d', some o) ∈ log cap size U G s l' →
      (Exclusively c' → o = .waits) ∧ (¬ Exclusively c' → o = .panics) := by
  obtain ⟨g1, -, -⟩ := good_after l _ (Good.new s₀) hl
  generalize after cap size U G (.new s₀) l = t at *
  obtain ⟨hm, hh, hw⟩ : c.mode = .shared ∧ c.holding = some .shared ∧ c.write = true := by
    rcases hc with rfl | ⟨k, rfl⟩ <;> exact ⟨rfl, rfl, rfl⟩
  have hs : s.writer = false ∧ s.oPoison = false ∧ s.iPoison = true ∧ Mode.excl ∉ s.cells ∧
      s.cells.count .shared < s.readers := by
    have hb : t.blocked c.mode = false := by
      by_contra hb
      simp only [SeqUnwind.step, call, g1.oPoison, Bool.false_eq_true, if_false, eq_true_of_ne_false hb, if_true] at h
      simp at h
    have he : t.writer = false := by rw [hm] at hb; exact hb
    simp only [SeqUnwind.step, call, g1.oPoison, hb, Bool.false_eq_true, if_false, hh, State.acquire, g1.iPoison, hw] at h
    split at h
    · simp only [Prod.mk.injEq] at h
      rw [← h.2]
      refine ⟨he, by simp [State.unwound], rfl, ?_, ?_⟩
      · intro e; rw [g1.writer.2 e] at he; simp at he
      · simp [State.unwound, g1.readers]
    · split at h <;> simp at h
  clear h
  induction l' generalizing s with
  | nil => simp [log]
  | cons e l' ih =>
    obtain ⟨h1, h2, h3, h4, h5⟩ := hs
    have hd' := fun e he => hd e (.tail _ he)
    intro c' w' d' o hm'
    rw [log_cons, List.mem_cons] at hm'
    cases e with
    | drop m p =>
      have hp : p = false := by
        cases p with
        | false => rfl
        | true => exact absurd rfl ((hd _ (.head _)).2 m)
      subst hp
      rcases hm' with hm' | hm'
      · injection hm' with h _; simp at h
      · refine ih _ hd' ?_ _ _ _ _ hm'
        by_cases hx : m ∈ s.cells
        · simp only [SeqUnwind.step, if_pos hx]
          cases m with
          | excl => exact absurd hx h4
          | shared =>
            refine ⟨h1, by simp [State.unwound, State.release, h2], h3, fun e => h4 (List.mem_of_mem_erase e), ?_⟩
            have hpos : 0 < s.cells.count .shared := List.count_pos_iff.2 hx
            simp only [State.unwound, State.release, List.count_erase_self]
            omega
        · simp only [SeqUnwind.step, if_neg hx]
          exact ⟨h1, h2, h3, h4, h5⟩
    | call c1 w1 d1 =>
      have hp : d1 = false := by
        cases d1 with
        | false => rfl
        | true => exact absurd rfl ((hd _ (.head _)).1 c1 w1)
      subst hp
      have hr : s.readers ≠ 0 := by omega
      have hx : ∃ s', ((Exclusively c1 ∧ SeqUnwind.step cap size U G s (.call c1 w1 false) = (some .waits, s')) ∨
          (¬ Exclusively c1 ∧ SeqUnwind.step cap size U G s (.call c1 w1 false) = (some .panics, s'))) ∧
          (s'.writer = false ∧ s'.oPoison = false ∧ s'.iPoison = true ∧ Mode.excl ∉ s'.cells ∧
            s'.cells.count .shared < s'.readers) := by
        have hmode : (Exclusively c1 ∧ c1.mode = .excl) ∨ (¬ Exclusively c1 ∧ c1.mode = .shared ∧
            (c1.holding = none ∨ c1.holding = some .shared)) := by
          cases c1 with
          | op o => cases o <;> simp [Exclusively, SCall.mode, SCall.holding, SCall.keeps]
          | _ => simp [Exclusively, SCall.mode, SCall.holding, SCall.keeps]
        rcases hmode with ⟨k1, k2⟩ | ⟨k1, k2, k3⟩
        · refine ⟨s, .inl ⟨k1, ?_⟩, h1, h2, h3, h4, h5⟩
          have : s.blocked c1.mode = true := by simp [k2, State.blocked, hr]
          simp [SeqUnwind.step, call, h2, this]
        · have hb : s.blocked c1.mode = false := by simp [k2, State.blocked, h1]
          rcases k3 with k3 | k3
          · refine ⟨s.unwound false, .inr ⟨k1, ?_⟩, h1, by simp [State.unwound, h2], h3, h4, h5⟩
            simp [SeqUnwind.step, call, h2, hb, k3, State.acquire, h3]
          · refine ⟨{ s with readers := s.readers + 1 }.unwound false, .inr ⟨k1, ?_⟩, h1, by simp [State.unwound, h2], h3, h4, ?_⟩
            · simp [SeqUnwind.step, call, h2, hb, k3, State.acquire, h3]
            · simp only [State.unwound]; omega
      obtain ⟨s', k1, k2⟩ := hx
      rcases hm' with hm' | hm'
      · injection hm' with e1 e2
        injection e1 with e1
        subst e1
        rcases k1 with ⟨k1, k3⟩ | ⟨k1, k3⟩ <;> rw [k3] at e2 <;> cases e2
        · exact ⟨fun _ => rfl, fun h => absurd k1 h⟩
        · exact ⟨fun h => absurd h k1, fun _ => rfl⟩
      · have e1 : (SeqUnwind.step cap size U G s (.call c1 w1 false)).2 = s' := by
          rcases k1 with ⟨-, k3⟩ | ⟨-, k3⟩ <;> rw [k3]
        rw [e1] at hm'
        exact ih s' hd' k2 _ _ _ _ hm'

/-- **C121 (`take`, `take_multiple` and `pop`).** If one of these panics, the next call on any handle panics, or waits because
of a cell that is held. -/
theorem C121_take (s₀ : S) (l : List (Event K V)) (hl : Harmless (log cap size U G (.new s₀) l))
    (c : SCall K V) (hc : (∃ k, c = .op (.take k)) ∨ (∃ ks, c = .op (.takeMultiple ks)) ∨ ∃ n, c = .op (.pop n))
    (w : Fates) (s : State S)
    (h : SeqUnwind.step cap size U G (after cap size U G (.new s₀) l) (.call c w false) = (some .panics, s))
    (c' : SCall K V) (w' : Fates) (d' : Bool) :
    (SeqUnwind.step cap size U G s (.call c' w' d')).1 = some .panics ∨
      (SeqUnwind.step cap size U G s (.call c' w' d')).1 = some .waits ∧
        held [] (log cap size U G (.new s₀) l) ≠ [] := by
  obtain ⟨g1, -, g3⟩ := good_after l _ (Good.new s₀) hl
  have g3 : (after cap size U G (State.new s₀) l).cells = held [] (log cap size U G (State.new s₀) l) := g3
  rw [← g3]
  generalize after cap size U G (.new s₀) l = t at *
  obtain ⟨hh, hw⟩ : c.holding = none ∧ c.write = true := by
    rcases hc with ⟨k, rfl⟩ | ⟨k, rfl⟩ | ⟨k, rfl⟩ <;> exact ⟨rfl, rfl⟩
  have hs : s.oPoison = false ∧ s.iPoison = true ∧ s.writer = t.writer ∧ s.readers = t.readers := by
    have hb : t.blocked c.mode = false := by
      by_contra hb
      simp only [SeqUnwind.step, call, g1.oPoison, Bool.false_eq_true, if_false, eq_true_of_ne_false hb, if_true] at h
      simp at h
    simp only [SeqUnwind.step, call, g1.oPoison, hb, Bool.false_eq_true, if_false, hh, State.acquire, g1.iPoison, hw] at h
    split at h
    · simp only [Prod.mk.injEq] at h
      rw [← h.2]
      exact ⟨by simp [State.unwound], rfl, rfl, rfl⟩
    · split at h <;> simp at h
  obtain ⟨h1, h2, h3, h4⟩ := hs
  by_cases hb : s.blocked c'.mode = true
  · right
    have hb' : t.blocked c'.mode = true := by
      rw [← hb]; cases c'.mode <;> simp [State.blocked, h3, h4]
    refine ⟨by simp [SeqUnwind.step, call, h1, hb], fun e => ?_⟩
    have := (blocked_iff g1 c').1 hb'
    simp [Excluded, e] at this
  · left
    have hi : (s.acquire c'.holding).iPoison = true := by
      rcases e : c'.holding with _ | _ | _ <;> simp [State.acquire, h2]
    simp [SeqUnwind.step, call, h1, hb, hi]

/-- The `Sequential` is poisoned for its users. -/
theorem unwound_steps : ∀ (l : List (Event K V)) (s : State S), s.oPoison = true →
    ∀ c w d o, (Event.call c w d, some o) ∈ log cap size U G s l →
      ((∃ es, c = .op (.push es)) → o = .returns (.obs (.many []))) ∧
      ((∃ k, c = .get k ∨ c = .getMut k) → o = .returns (.cell none)) ∧
      (((∀ es, c ≠ .op (.push es)) ∧ ∀ k, c ≠ .get k ∧ c ≠ .getMut k) → o = .panics)
  | [], s, _ => by simp [log]
  | e :: l, s, h => by
    intro c w d o hm
    rw [log_cons, List.mem_cons] at hm
    rcases hm with hm | hm
    · injection hm with h1 h2
      subst h1
      simp only [SeqUnwind.step, call, h, if_true] at h2
      cases c with
      | op o' => cases o' <;> simp [SCall.onPoison] at h2 <;> simp [h2]
      | _ => simp [SCall.onPoison] at h2; simp [h2]
    · refine unwound_steps l _ ?_ c w d o hm
      cases e with
      | drop m p =>
        simp only [SeqUnwind.step]
        split
        · simp [State.unwound]; left; cases m <;> simp [State.release, h]
        · exact h
      | call c w d =>
        simp only [SeqUnwind.step, call, h, if_true]
        split <;> simp [State.unwound, h]

/-- **C121 (a handle is dropped while its thread unwinds).** When the thread of a call that panics drops its handle, every
later `push` on every other handle returns an empty vector (its elements are lost), every `get` and `get_mut` finds
nothing, and every other call panics. -/
theorem C121_handle (s₀ : S) (l : List (Event K V)) (c : SCall K V) (w : Fates) (s : State S)
    (h : SeqUnwind.step cap size U G (after cap size U G (.new s₀) l) (.call c w true) = (some .panics, s))
    (l' : List (Event K V)) :
    ∀ c w d o, (Event.call c w d, some o) ∈ log cap size U G s l' →
      ((∃ es, c = .op (.push es)) → o = .returns (.obs (.many []))) ∧
      ((∃ k, c = .get k ∨ c = .getMut k) → o = .returns (.cell none)) ∧
      (((∀ es, c ≠ .op (.push es)) ∧ ∀ k, c ≠ .get k ∧ c ≠ .getMut k) → o = .panics) := by
  refine unwound_steps l' s ?_
  simp only [SeqUnwind.step, call] at h
  split at h
  · split at h
    · simp at h
    · simp only [Prod.mk.injEq] at h; rw [← h.2]; simp [State.unwound]
  · split at h
    · simp at h
    · split at h
      · simp only [Prod.mk.injEq] at h; rw [← h.2]; simp [State.unwound]
      · split at h
        · simp only [Prod.mk.injEq] at h; rw [← h.2]; simp [State.unwound]
        · split at h <;> simp at h

/-- **C121 (a cell is dropped while its thread unwinds).** The same when no call panics, but the user's code does while it
holds a cell. -/
theorem C121_cell (s₀ : S) (l : List (Event K V)) (hl : Harmless (log cap size U G (.new s₀) l)) (m : Mode)
    (hm : m ∈ held [] (log cap size U G (.new s₀) l)) (l' : List (Event K V)) :
    ∀ c w d o, (Event.call c w d, some o) ∈
        log cap size U G (SeqUnwind.step cap size U G (after cap size U G (.new s₀) l) (.drop m true)).2 l' →
      ((∃ es, c = .op (.push es)) → o = .returns (.obs (.many []))) ∧
      ((∃ k, c = .get k ∨ c = .getMut k) → o = .returns (.cell none)) ∧
      (((∀ es, c ≠ .op (.push es)) ∧ ∀ k, c ≠ .get k ∧ c ≠ .getMut k) → o = .panics) := by
  obtain ⟨-, -, g3⟩ := good_after l _ (Good.new s₀) hl
  refine unwound_steps l' _ ?_
  have : m ∈ (after cap size U G (.new s₀) l).cells := by rw [g3]; exact hm
  simp [SeqUnwind.step, this, State.unwound]

/-! ## The full statement is false -/

/-- An `Array` of numbers, `element_size` 1. -/
def natArray : Unwinding (Array Nat Nat) Nat Nat := array (fun _ => 1) ArrayProps.natSorter ArrayProps.natSorter fun _ l => l

section Arr

variable (l : List (Event Nat Nat))

/-- A `Sequential` over an `Array` of capacity 2: a history, the state after it. -/
def arrLog : Log Nat Nat := log Array.capacity Array.totalSize natArray arrayAccesses (.new (Array.new 2)) l
def arrAfter : State (Array Nat Nat) := after Array.capacity Array.totalSize natArray arrayAccesses (.new (Array.new 2)) l
def arrStep (s : State (Array Nat Nat)) (e : Event Nat Nat) : Option (Outcome Nat Nat) × State (Array Nat Nat) :=
  SeqUnwind.step Array.capacity Array.totalSize natArray arrayAccesses s e

/-- **C121 (full).** Whatever panicked before, a call waits only for cells, and otherwise does what it does on the
container itself. -/
def C121_full : Prop :=
  ∀ (l : List (Event Nat Nat)) (c : SCall Nat Nat) (w : Fates) (d : Bool),
    ∃ o s', arrStep (arrAfter l) (.call c w d) = (some o, s') ∧
      AsAlone Array.capacity Array.totalSize natArray arrayAccesses (held [] (arrLog l))
        (content Array.capacity Array.totalSize natArray arrayAccesses (Array.new 2) (arrLog l)) c w o

/-- 0: waits, 1: panics, 2: returns something of the container, 3: an empty vector, 4: no value. -/
def code : Outcome Nat Nat → Nat
  | .waits => 0
  | .panics => 1
  | .returns (.obs (.many [])) => 3
  | .returns (.cell none) => 4
  | .returns _ => 2

/-- What the calls of a history show. -/
def seen : List Nat := (arrLog l).filterMap fun p => p.2.map code

end Arr

/-- `element_size` panics in a `push`. -/
def badPush : List (Event Nat Nat) := [.call (.op (.push [(1, 1)])) [] false, .call (.op (.push [(2, 2)])) [some 0] false]
/-- `eq` panics in a `take`. -/
def badTake : List (Event Nat Nat) := [.call (.op (.push [(1, 1)])) [] false, .call (.op (.take 1)) [some 0] false]
/-- `eq` panics in a `get`. -/
def badGet : List (Event Nat Nat) := [.call (.op (.push [(1, 1)])) [] false, .call (.get 1) [some 0] false]
/-- The code that holds a cell panics. -/
def badCell : List (Event Nat Nat) := [.call (.op (.push [(1, 1)])) [] false, .call (.get 1) [] false, .drop .shared true]
/-- `eq` panics in a `contains`. -/
def badContains : List (Event Nat Nat) :=
  [.call (.op (.push [(1, 1)])) [] false, .call (.get 1) [] false, .call (.op (.contains 1)) [some 0] false,
    .drop .shared false]

/-- Calls of every kind. -/
def everything : List (Event Nat Nat) :=
  [.call .size [] false, .call (.op (.contains 1)) [] false, .call (.op (.takeMultiple [1])) [] false,
    .call (.op (.take 1)) [] false, .call (.op (.pop 1)) [] false, .call (.op (.push [(3, 3)])) [] false,
    .call (.get 1) [] false, .call (.getMut 1) [] false, .call (.op .flush) [] false]

/-- **C121 is false**: after a `push` that panicked everything waits; after a `get`, some calls panic and the others wait;
after a `take` everything panics until a `push`, which makes everything wait; after a panic with a cell in hand, a
`push` returns nothing and its element is lost. -/
theorem C121_examples :
    seen (badPush ++ everything) = [3, 1, 0, 0, 0, 0, 0, 0, 0, 0, 0] ∧
    seen (badGet ++ everything) = [3, 1, 1, 1, 1, 0, 0, 0, 1, 0, 1] ∧
    seen (badTake ++ everything) = [3, 1, 1, 1, 1, 1, 1, 1, 0, 0, 0] ∧
    seen (badCell ++ everything) = [3, 2, 1, 1, 1, 1, 1, 3, 4, 4, 1] := by
  decide +kernel

theorem C121_false : ¬ C121_full := by
  intro h
  obtain ⟨o, s', h1, h2⟩ := h badPush .size [] false
  have h3 : o = .waits := by
    have : arrStep (arrAfter badPush) (.call .size [] false) = (some .waits, arrAfter badPush) := rfl
    rw [this] at h1
    cases h1
    rfl
  have hn : ¬ Excluded (held [] (arrLog badPush)) (.size : SCall Nat Nat) := by
    have : held [] (arrLog badPush) = [] := rfl
    rw [this]
    simp [Excluded]
  have := h2.2 hn
  rw [h3] at this
  simp [alone] at this

/-! ## The hypotheses are met -/

/-- A harmless history in which a `contains` panics while a cell is held; everything goes on. -/
example : Harmless (arrLog badContains) ∧ seen (badContains ++ everything) = [3, 2, 1, 2, 2, 2, 2, 3, 3, 4, 4, 2] := by
  refine ⟨⟨?_, ?_⟩, by decide +kernel⟩
  · intro c w d hm
    have e : arrLog badContains = [(.call (.op (.push [(1, 1)])) [] false, some (.returns (.obs (.many [])))),
      (.call (.get 1) [] false, some (.returns (.cell (some 1)))),
      (.call (.op (.contains 1)) [some 0] false, some .panics), (.drop .shared false, none)] := rfl
    rw [e] at hm
    simp at hm
    obtain ⟨rfl, rfl, rfl⟩ := hm
    exact ⟨trivial, rfl⟩
  · intro m o hm
    have := List.of_mem_zip hm
    simp [badContains] at this

/-- The panics of C121_push, C121_flush and C121_take, and the cell of C121_cell. -/
example : arrStep (arrAfter [.call (.op (.push [(1, 1)])) [] false]) (.call (.op (.push [(2, 2)])) [some 0] false) =
      (some .panics, arrAfter badPush) ∧
    arrStep (arrAfter [.call (.op (.push [(1, 1)])) [] false]) (.call (.get 1) [some 0] false) =
      (some .panics, arrAfter badGet) ∧
    arrStep (arrAfter [.call (.op (.push [(1, 1)])) [] false]) (.call (.op (.take 1)) [some 0] false) =
      (some .panics, arrAfter badTake) ∧
    held [] (arrLog [.call (.op (.push [(1, 1)])) [] false, .call (.get 1) [] false]) = [.shared] :=
  ⟨rfl, rfl, rfl, rfl⟩

end SeqUnwindProps
end Byoc
