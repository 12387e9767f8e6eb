import Verif.Proofs.Sequential

/-! Who waits for whom in a `Sequential` shared by threads. -/

namespace Byoc.Seq

open Lock (Mode)

variable {K V S : Type}

def SEv.isSilent : SEv K V → Bool
  | .silent _ => true
  | _ => false

/-- The last thing thread `i` did, apart from passing locks. -/
def lastOf (i : Nat) (l : List (SEv K V)) : Option (SEv K V) :=
  (l.filter fun e => decide (e.thread = i) && !e.isSilent).getLast?

theorem lastOf_nil (i : Nat) : lastOf i ([] : List (SEv K V)) = none := rfl

theorem lastOf_snoc (i : Nat) (l : List (SEv K V)) (e : SEv K V) :
    lastOf i (l ++ [e]) = if e.thread = i ∧ e.isSilent = false then some e else lastOf i l := by
  unfold lastOf
  rw [List.filter_append]
  by_cases h : e.thread = i ∧ e.isSilent = false
  · simp [h]
  · rw [if_neg h]
    have : (decide (e.thread = i) && !e.isSilent) = false := by
      cases he : e.isSilent <;> simp [he] at h ⊢
      exact h
    simp [this]

/-- What the last event of a thread says about where it is. -/
def Pc.After (i : Nat) (o : Option (SEv K V)) : Pc K V S → Prop
  | .idle => ∀ e, o = some e → (∃ c r, e = .returned i c r ∧ ∀ v, r ≠ .cell (some v)) ∨
      (∃ c r, e = .skipped i c r) ∨ e = .dropped i
  | .start c => o = some (.called i c)
  | .locked c => o = some (.called i c)
  | .inside c _ => o = some (.called i c)
  | .leaving c r => o = some (.executed i c r) ∧ ((∃ v, r = .cell (some v)) → ∃ k, c = .get k ∨ c = .getMut k)
  | .closing c r => o = some (.executed i c r) ∧ ∀ v, r ≠ .cell (some v)
  | .cell m => ∃ c v, o = some (.returned i c (.cell (some v))) ∧ c.holding = some m
  | .dead h => ∃ c, o = some (.panicked i c) ∧ (h = none ∨ h = c.holding)

variable {C : Container K V}

theorem exec_cell {c : SCall K V} {s t : C.block.State} {v : Option V}
    (h : C.exec c s = .ok (.cell v, t)) : ∃ k, c = .get k ∨ c = .getMut k := by
  cases c with
  | get k => exact ⟨k, .inl rfl⟩
  | getMut k => exact ⟨k, .inr rfl⟩
  | capacity => simp [Container.exec] at h
  | size => simp [Container.exec] at h
  | op o =>
    simp only [Container.exec] at h
    cases ho : C.block.observe s o with
    | panic => rw [ho] at h; cases h
    | ok x => rw [ho] at h; cases h

theorem step_after {s s' : SState K V C.block.State} {i a e} {l : List (SEv K V)}
    (hs : ∀ (j : Nat) (p : Pc K V C.block.State), s.threads[j]? = some p → p.After j (lastOf j l))
    (h : sstep C s i a = some (s', e)) :
    e.thread = i ∧ ∃ p q, s.threads[i]? = some p ∧ s'.threads = s.threads.set i q ∧
      q.After i (lastOf i (l ++ [e])) := by
  simp only [sstep] at h
  split at h
  all_goals (try (simp at h; done))
  all_goals rename_i hp
  all_goals (have hh := hs i _ hp)
  all_goals repeat' split at h
  all_goals simp only [Option.some.injEq, Prod.mk.injEq, reduceCtorEq] at h
  all_goals obtain ⟨rfl, rfl⟩ := h
  all_goals refine ⟨rfl, _, _, hp, by simp only [SState.setPc, acquire_threads, release_threads, dropGuard_threads]; rfl, ?_⟩
  all_goals simp only [Pc.After, lastOf_snoc, SEv.thread, SEv.isSilent, true_and] at hh ⊢
  all_goals try (intros; simp_all; done)
  · rintro e h; simp only [if_true, Option.some.injEq] at h; exact .inr (.inl ⟨_, _, h.symm⟩)
  · rename_i he _
    exact ⟨by simp, fun ⟨v, hv⟩ => exec_cell (by rw [he, hv])⟩
  · rename_i he _
    exact ⟨by simp, fun ⟨v, hv⟩ => exec_cell (by rw [he, hv])⟩
  · exact ⟨_, _, by simp; exact ⟨rfl, rfl⟩, rfl⟩
  · exact ⟨_, _, by simp; exact ⟨rfl, rfl⟩, rfl⟩
  · rename_i h1 h2
    refine ⟨by simpa using hh.1, ?_⟩
    intro v hv
    obtain ⟨k, hk | hk⟩ := hh.2 ⟨v, hv⟩
    · exact h1 k v hk hv
    · exact h2 k v hk hv
  · rintro e h; simp only [if_true, Option.some.injEq] at h; exact .inl ⟨_, _, h.symm, hh.2⟩

theorem SRun.after {s₀ s : SState K V C.block.State} {l} (h : SRun C s₀ l s)
    (h0 : ∀ (j : Nat) (p : Pc K V C.block.State), s₀.threads[j]? = some p → p.After j none) :
    ∀ (j : Nat) (p : Pc K V C.block.State), s.threads[j]? = some p → p.After j (lastOf j l) := by
  induction h with
  | nil => exact h0
  | snoc hr hs ih =>
    rename_i l s s' i a e
    obtain ⟨rfl, p, q, hp, ht, hq⟩ := step_after ih hs
    intro j u hj
    rw [ht, List.getElem?_set] at hj
    split at hj
    · rename_i hij
      subst hij
      split at hj
      · simp only [Option.some.injEq] at hj; subst hj; exact hq
      · simp at hj
    · rename_i hij
      rw [lastOf_snoc, if_neg (fun h => hij h.1)]
      exact ih j u hj

theorem new_after (c : S) (n : Nat) : ∀ (j : Nat) (p : Pc K V S),
    (SState.new (K := K) (V := V) c n).threads[j]? = some p → p.After j none := by
  intro j p hp
  simp only [SState.new, List.getElem?_replicate] at hp
  split at hp
  · simp at hp; subst hp; intro e h; simp at h
  · simp at hp

/-- Threads of the events are threads of the state. -/
theorem SRun.thread_lt {s₀ s : SState K V C.block.State} {l} (h : SRun C s₀ l s) :
    s.threads.length = s₀.threads.length ∧ ∀ e ∈ l, e.thread < s.threads.length := by
  induction h with
  | nil => simp
  | snoc hr hs ih =>
    rename_i l s s' i a e
    have hlt : e.thread = i ∧ i < s.threads.length ∧ s'.threads.length = s.threads.length := by
      simp only [sstep] at hs
      split at hs
      all_goals (try (simp at hs; done))
      all_goals rename_i hp
      all_goals repeat' split at hs
      all_goals simp only [Option.some.injEq, Prod.mk.injEq, reduceCtorEq] at hs
      all_goals obtain ⟨rfl, rfl⟩ := hs
      all_goals exact ⟨rfl, (List.getElem?_eq_some_iff.1 hp).1, by
        simp [SState.setPc, acquire_threads, release_threads, dropGuard_threads]⟩
    obtain ⟨rfl, h2, h3⟩ := hlt
    refine ⟨h3.trans ih.1, ?_⟩
    intro x hx
    rw [h3]
    rcases List.mem_append.1 hx with hx | hx
    · exact ih.2 x hx
    · simp at hx; subst hx; exact h2

theorem lastOf_mem {i : Nat} {l : List (SEv K V)} {e} (h : lastOf i l = some e) :
    e ∈ l ∧ e.thread = i := by
  have := List.mem_of_getLast? h
  simp at this
  exact ⟨this.1, this.2.1⟩

/-- A thread that cannot go on in a call is at its start, and the outer lock is held. -/
theorem blocked {s : SState K V C.block.State} {i : Nat} {p} (hp : s.threads[i]? = some p)
    (hc : ∀ m, p ≠ .cell m) (hd : ∀ h, p ≠ .dead h) (hi : p ≠ .idle) (h : sstep C s i .go = none) :
    ∃ c, p = .start c ∧ s.oPoison = false ∧
      (s.oWriter = true ∨ (c.mode = .excl ∧ s.oReaders ≠ 0)) := by
  simp only [sstep, hp] at h
  cases p with
  | idle => exact absurd rfl hi
  | cell m => exact absurd rfl (hc m)
  | dead x => exact absurd rfl (hd x)
  | start c =>
    refine ⟨c, rfl, ?_⟩
    cases ho : s.oPoison with
    | true => simp only [ho, if_true] at h; split at h <;> simp at h
    | false =>
      refine ⟨rfl, ?_⟩
      simp only [ho] at h
      cases hm : c.mode with
      | shared => simp [hm] at h; exact .inl h
      | excl =>
        simp [hm] at h
        by_cases hw : s.oWriter = true
        · exact .inl hw
        · exact .inr ⟨rfl, h (by simpa using hw)⟩
  | locked c => simp only at h; repeat' split at h
                all_goals simp at h
  | inside c t => simp only at h; repeat' split at h
                  all_goals simp at h
  | leaving c r => simp only at h; split at h <;> simp at h
  | closing c r => simp at h

theorem SInv.writer {s : SState K V S} (hi : SInv s) (h : s.oWriter = true) :
    ∃ (j : Nat) (p : Pc K V S), s.threads[j]? = some p ∧ p.hold = some .excl := by
  have : 0 < (s.threads.map Pc.xo).sum := by rw [hi.xo, h]; simp
  obtain ⟨j, p, hj, hp⟩ := sum_pos _ _ this
  refine ⟨j, p, hj, ?_⟩
  simp only [Pc.xo] at hp
  cases hh : p.hold with
  | none => simp [hh] at hp
  | some m => cases m <;> simp [hh] at hp ⊢

theorem SInv.readers {s : SState K V S} (hi : SInv s) (h : s.oReaders ≠ 0) :
    ∃ (j : Nat) (p : Pc K V S), s.threads[j]? = some p ∧ p.hold = some .shared := by
  have : 0 < (s.threads.map Pc.so).sum := by rw [hi.so]; omega
  obtain ⟨j, p, hj, hp⟩ := sum_pos _ _ this
  refine ⟨j, p, hj, ?_⟩
  simp only [Pc.so] at hp
  cases hh : p.hold with
  | none => simp [hh] at hp
  | some m => cases m <;> simp [hh] at hp ⊢

/-- Steps a call can still take. -/
def Pc.left : Pc K V S → Nat
  | .start _ => 5
  | .locked _ => 4
  | .inside _ _ => 3
  | .leaving _ _ => 2
  | .closing _ _ => 1
  | _ => 0

theorem go_left {s s' : SState K V C.block.State} {i a e} (ha : a = .go)
    (h : sstep C s i a = some (s', e)) :
    ∃ p q, s.threads[i]? = some p ∧ s'.threads = s.threads.set i q ∧ q.left < p.left := by
  simp only [sstep] at h
  split at h
  all_goals (try (simp at h; done))
  all_goals (try (simp at ha; done))
  all_goals rename_i hp
  all_goals repeat' split at h
  all_goals simp only [Option.some.injEq, Prod.mk.injEq, reduceCtorEq] at h
  all_goals obtain ⟨rfl, rfl⟩ := h
  all_goals exact ⟨_, _, hp, by
      simp only [SState.setPc, acquire_threads, release_threads, dropGuard_threads]; rfl, by
      simp [Pc.left]⟩

end Byoc.Seq
