import Verif.Proofs.Handles

/-!
# C33, C34: reference counted handles
-/

namespace Byoc.HandleProps

open Lock Handles

/-- The handle has not been dropped and no `drop` of it has started. -/
def Live (h : Handle) : Prop := h.phase = .live ∨ h.phase = .cloning ∨ h.phase = .keeping

/-- No spurious failure of `compare_exchange_weak`, no handle dropped by a panicking thread. -/
def NoAccident (l : List (Nat × HAct × HEv)) : Prop := ∀ x ∈ l, x.2.1.clean = true

/-- Full statement of C33, over all interleavings of clones, `do_not_delete`s and drops of any number
of handles: (1) the file is removed at most once, (2) never while a handle is live, (3) never after
`do_not_delete` returned, (4) and it is removed once all handles are dropped, unless `do_not_delete`
was called. -/
def C33_full : Prop :=
  ∀ (l : List (Nat × HAct × HEv)) (s : FState), FRun .new l s →
    s.removed ≤ 1 ∧ ((∃ h ∈ s.handles, Live h) → s.removed = 0) ∧ (0 < s.kept → s.removed = 0) ∧
    ((∀ h ∈ s.handles, h.phase = .gone) → s.kept = 0 → s.removed = 1)

/-- **C33**, proved part: (1), (2), (3) hold in every run, and (4) in every run without accidents. -/
theorem C33_partial {l : List (Nat × HAct × HEv)} {s : FState} (h : FRun .new l s) :
    s.removed ≤ 1 ∧ ((∃ h ∈ s.handles, Live h) → s.removed = 0) ∧ (0 < s.kept → s.removed = 0) ∧
    (NoAccident l → (∀ h ∈ s.handles, h.phase = .gone) → s.kept = 0 → s.removed = 1) := by
  have hi := h.inv new_finv
  have hw := hi.word.2
  have hr := hi.removed
  refine ⟨by omega, ?_, ?_, ?_⟩
  · rintro ⟨u, hu, hl⟩
    have h1 := le_sum (fun h : Handle => h.th.sharedCount) s.handles u hu
    have h2 : 1 ≤ u.th.sharedCount := by
      have hok := (hi.ok u hu).1
      obtain ⟨t, ph⟩ := u
      rcases hl with hl | hl | hl <;> simp only at hl <;> subst hl <;> simp only [Handle.Ok] at hok
      · subst hok; simp [Th.sharedCount]
      · rcases hok with rfl | ⟨_, rfl⟩ <;> simp [Th.sharedCount]
      · rcases hok with rfl | ⟨_, rfl⟩ <;> simp [Th.sharedCount]
    have h3 : 0 < s.shared := by unfold FState.shared; omega
    omega
  · intro hk
    have h3 : 0 < s.shared := by unfold FState.shared; omega
    omega
  · intro hl hg hk
    rcases (h.clean new_fclean hl).last hk with h1 | ⟨u, hu, hne⟩
    · exact h1
    · exact absurd (hg u hu) hne

/-- Handle 0 is cloned; handle 1 is dropped by a panicking thread; then handle 0 is dropped. -/
def poisonRun : List (Nat × HAct × HEv) :=
  [(0, .clone, .silent), (0, .run false, .silent), (0, .run false, .cloned),
   (1, .drop, .silent), (1, .run false, .silent), (1, .run false, .silent),
   (1, .run false, .silent), (1, .run false, .dropped), (1, .panicDrop, .silent),
   (0, .drop, .silent), (0, .run false, .silent), (0, .run false, .silent),
   (0, .run false, .dropped)]

/-- Run a list of actions. -/
def play : FState → List (Nat × HAct × HEv) → Option FState
  | s, [] => some s
  | s, (i, a, e) :: l => match fstep s i a with
    | some (s', e') => if e' = e ∧ s'.shared < 2 ^ 62 then play s' l else none
    | none => none

theorem play_run : ∀ {l s s'}, play s l = some s' → FRun s l s'
  | [], s, s', h => by simp [play] at h; subst h; exact .nil _
  | (i, a, e) :: l, s, s', h => by
    simp only [play] at h
    split at h
    · rename_i s1 e1 hs
      simp only [Option.ite_none_right_eq_some] at h
      obtain ⟨⟨rfl, hb⟩, h⟩ := h
      exact .cons hs hb (play_run h)
    · simp at h

/-- A handle dropped by a panicking thread poisons the counter: the file is never removed by the other
handles. -/
theorem C33_panic_leaks : ∃ s, FRun .new poisonRun s ∧ (∀ h ∈ s.handles, h.phase = .gone) ∧
    s.kept = 0 ∧ s.removed = 0 := by
  have h : ∃ s, play .new poisonRun = some s ∧ (∀ h ∈ s.handles, h.phase = .gone) ∧
      s.kept = 0 ∧ s.removed = 0 :=
    ⟨(play .new poisonRun).getD .new, by decide +kernel, by decide +kernel, by decide +kernel,
      by decide +kernel⟩
  obtain ⟨s, hs, h⟩ := h
  exact ⟨s, play_run hs, h⟩

/-- One handle, dropped; its `try_lock_mut` fails spuriously. -/
def spuriousRun : List (Nat × HAct × HEv) :=
  [(0, .drop, .silent), (0, .run false, .silent), (0, .run false, .silent),
   (0, .run false, .silent), (0, .run true, .dropped)]

theorem C33_spurious_leaks : ∃ s, FRun .new spuriousRun s ∧
    (∀ h ∈ s.handles, h.phase = .gone) ∧ s.kept = 0 ∧ s.removed = 0 := by
  have h : ∃ s, play .new spuriousRun = some s ∧ (∀ h ∈ s.handles, h.phase = .gone) ∧
      s.kept = 0 ∧ s.removed = 0 :=
    ⟨(play .new spuriousRun).getD .new, by decide +kernel, by decide +kernel, by decide +kernel,
      by decide +kernel⟩
  obtain ⟨s, hs, h⟩ := h
  exact ⟨s, play_run hs, h⟩

theorem C33_false : ¬ C33_full := by
  intro h
  obtain ⟨s, hr, hg, hk, h0⟩ := C33_panic_leaks
  have := (h _ s hr).2.2.2 hg hk
  omega

/-- Two handles dropped at the same time, their steps interleaved: the hypotheses of the last clause
are met, with a non trivial schedule. -/
def raceRun : List (Nat × HAct × HEv) :=
  [(0, .clone, .silent), (0, .run false, .silent), (0, .run false, .cloned),
   (0, .drop, .silent), (1, .drop, .silent), (0, .run false, .silent), (1, .run false, .silent),
   (0, .run false, .silent), (1, .run false, .silent), (1, .run false, .silent),
   (0, .run false, .silent), (1, .run false, .silent), (1, .run false, .removed),
   (0, .run false, .dropped)]

theorem C33_witness : ∃ s, FRun .new raceRun s ∧ NoAccident raceRun ∧
    (∀ h ∈ s.handles, h.phase = .gone) ∧ s.kept = 0 ∧ s.removed = 1 := by
  have h : ∃ s, play .new raceRun = some s ∧ (∀ h ∈ s.handles, h.phase = .gone) ∧
      s.kept = 0 ∧ s.removed = 1 :=
    ⟨(play .new raceRun).getD .new, by decide +kernel, by decide +kernel, by decide +kernel,
      by decide +kernel⟩
  obtain ⟨s, hs, h⟩ := h
  exact ⟨s, play_run hs, by unfold NoAccident; decide, h⟩

/-! ## C34 -/

/-- Full statement of C34, over all interleavings of clones, uses and drops of any number of handles:
the container is freed at most once, not while a handle is live, and it is freed when all handles are
dropped (`(t, false)` with `t` idle: the drop has returned). -/
def C34_full : Prop :=
  ∀ (l : List (Nat × DAct)) (s : DState), DRun .new l s →
    s.freed ≤ 1 ∧ ((∃ h ∈ s.handles, h.2 = true) → s.freed = 0) ∧
    ((∀ h ∈ s.handles, h.2 = false ∧ h.1.pc = .idle) → s.freed = 1)

/-- **C34**, proved part: no use after free, no double free — because the container is never freed. -/
theorem C34_partial {l : List (Nat × DAct)} {s : DState} (h : DRun .new l s) :
    s.freed ≤ 1 ∧ ((∃ h ∈ s.handles, h.2 = true) → s.freed = 0) := by
  have := (h.inv new_dinv).freed
  exact ⟨by omega, fun _ => this⟩

/-- The container is never freed, whatever the handles do: it leaks with its last handle. -/
theorem C34_never_freed {l : List (Nat × DAct)} {s : DState} (h : DRun .new l s) : s.freed = 0 :=
  (h.inv new_dinv).freed

def dplay : DState → List (Nat × DAct) → Option DState
  | s, [] => some s
  | s, (i, a) :: l => (dstep s i a).bind fun s' => dplay s' l

theorem dplay_run : ∀ {l s s'}, dplay s l = some s' → DRun s l s'
  | [], s, s', h => by simp [dplay] at h; subst h; exact .nil _
  | (i, a) :: l, s, s', h => by
    simp only [dplay, Option.bind_eq_some_iff] at h
    obtain ⟨s1, h1, h2⟩ := h
    exact .cons h1 (dplay_run h2)

/-- Clone, use, drop both. -/
theorem C34_witness : ∃ l s, DRun .new l s ∧ s.handles.length = 2 ∧
    (∀ h ∈ s.handles, h.2 = false ∧ h.1.pc = .idle) ∧ (0, DAct.use) ∈ l := by
  refine ⟨[(0, .clone), (0, .use), (1, .drop), (1, .run false), (1, .run false), (0, .drop),
    (0, .run false), (0, .run false)], ⟨1, [(Th.new, false), (Th.new, false)], 0⟩, ?_, rfl, by decide,
    by decide⟩
  exact dplay_run (by decide +kernel)

theorem C34_false : ¬ C34_full := by
  intro h
  obtain ⟨l, s, hr, _, hg, _⟩ := C34_witness
  have := (h l s hr).2.2 hg
  have := C34_never_freed hr
  omega

end Byoc.HandleProps
