import Verif.Proofs.ConcStream
import Verif.Props.StreamProps

/-!
# C91: a `Stream` shared by several threads through `DynBuildingBlock::into_concurrent()`
-/

namespace Byoc.ConcStreamProps

open SharedStream StreamProps
open ByteStream (csz Streams Small)

variable {K V : Type} [LinearOrder K] [LinearOrder V]

/-- What is in the container: what a `pop` of more than its size would return. -/
def inside (cd : Codec (K × V)) (s : ByteStream) : List (K × V) :=
  match (byteStream cd).pop s ((byteStream cd).size s + 1) with
  | .ok (out, _) => out
  | .panic => []

theorem inside_perm {cd : Codec (K × V)} {s : ByteStream} {ls : List (List (K × V))}
    (h : Streams cd 0 s.stream ls) : (inside cd s).Perm ls.flatten := by
  have hsz : s.size = total (csz cd) ls.flatten := by rw [ByteStream.size, h.size]
  obtain ⟨out, s', ls', g1, -, -, -, g5, g6, -⟩ := h.pop (id : V → V) (s.size + 1)
  have h1 : inside cd s = out := by
    unfold inside
    have : (byteStream cd).pop s ((byteStream cd).size s + 1) = .ok (out, s') := g1
    rw [this]
  rw [h1]
  have hnil : ls'.flatten = [] := by
    rcases g6 with g6 | g6
    · exact g6
    · have := total_perm (csz cd) g5
      rw [total_append] at this
      omega
  rw [hnil, List.append_nil] at g5
  exact g5

/-- The elements in the hands of the threads, in the middle of their calls. -/
def inHand (s : State K V) : List (K × V) := (s.threads.map Pc.held).flatten

/-- No thread is in a call. -/
def AtRest (s : State K V) : Prop := ∀ p ∈ s.threads, p = .idle

omit [LinearOrder K] [LinearOrder V] in
theorem inHand_rest {s : State K V} (h : AtRest s) : inHand s = [] := by
  unfold inHand
  rw [List.flatten_eq_nil_iff]
  intro l hl
  obtain ⟨p, hp, rfl⟩ := List.mem_map.1 hl
  rw [h p hp]; rfl

/-! ## The claim -/

/-- **C91 in full**: a container which may be shared by threads: no call panics, the size never exceeds
the capacity, `take` returns an element with the key asked, and when no thread is in a call every
element pushed is in the container or was returned, once. -/
def C91_full : Prop :=
  ∀ (K V : Type) (_ : LinearOrder K) (_ : LinearOrder V) (cd : Codec (K × V)), SmallCodec cd →
    ∀ (C n : Nat) (l : List (Ev K V)) (s : State K V), Run cd (.new (ByteStream.new C) n) l s →
      (∀ i o, Ev.panicked i o ∉ l) ∧ (byteStream cd).size s.cont ≤ C ∧
      (∀ i k e, Ev.returned i (.take k) (.opt (some e)) ∈ l → e.1 = k) ∧
      (AtRest s → (inside cd s.cont ++ returned l).Perm (given l))

/-! ### Concrete runs -/

/-- Perform steps. -/
def play (s : State Nat Nat) : List (Nat × Act Nat Nat) → Option (List (Ev Nat Nat) × State Nat Nat)
  | [] => some ([], s)
  | (i, a) :: as => do
    let (s, e) ← step small s i a
    let (es, s) ← play s as
    some (e :: es, s)

theorem Run.trans {cd : Codec (K × V)} {s₀ s₁ s₂ : State K V} {l₁ l₂ : List (Ev K V)}
    (h₁ : Run cd s₀ l₁ s₁) (h₂ : Run cd s₁ l₂ s₂) : Run cd s₀ (l₁ ++ l₂) s₂ := by
  induction h₂ with
  | nil => simpa using h₁
  | snoc _ hs ih => rw [← List.append_assoc]; exact .snoc ih hs

theorem Run.one {cd : Codec (K × V)} {s s' : State K V} {i : Nat} {a : Act K V} {e : Ev K V}
    (h : step cd s i a = some (s', e)) : Run cd s [e] s' := .snoc .nil h

theorem Run.nil_inv {cd : Codec (K × V)} {s t : State K V} {m : List (Ev K V)} (h : Run cd s m t)
    (hm : m = []) : t = s := by
  cases h with
  | nil => rfl
  | snoc _ _ => simp at hm

theorem Run.snoc_inv {cd : Codec (K × V)} {s t : State K V} {m m' : List (Ev K V)} {e : Ev K V}
    (h : Run cd s m t) (hm : m = m' ++ [e]) :
    ∃ t₁ i a, Run cd s m' t₁ ∧ step cd t₁ i a = some (t, e) := by
  cases h with
  | nil => simp at hm
  | snoc h hs =>
    obtain ⟨rfl, he⟩ := List.append_inj' hm rfl
    cases he
    exact ⟨_, _, _, h, hs⟩

theorem play_run {as : List (Nat × Act Nat Nat)} : ∀ {s s' : State Nat Nat} {es : List (Ev Nat Nat)},
    play s as = some (es, s') → Run small s es s' := by
  induction as with
  | nil => intro s s' es h; simp [play] at h; obtain ⟨rfl, rfl⟩ := h; exact .nil
  | cons x as ih =>
    intro s s' es h
    obtain ⟨i, a⟩ := x
    cases hs : step small s i a with
    | none => simp [play, hs] at h
    | some y =>
      cases hp : play y.1 as with
      | none => simp [play, hs, hp] at h
      | some z =>
        simp [play, hs, hp] at h
        obtain ⟨rfl, rfl⟩ := h
        exact Run.trans (Run.one (by rw [hs])) (ih hp)

/-- A predicate of the result of some steps. -/
def after? (s : State Nat Nat) (as : List (Nat × Act Nat Nat))
    (P : List (Ev Nat Nat) → State Nat Nat → Bool) : Bool :=
  match play s as with
  | some (es, s) => P es s
  | none => false

theorem of_after {s : State Nat Nat} {as : List (Nat × Act Nat Nat)}
    {P : List (Ev Nat Nat) → State Nat Nat → Bool} (h : after? s as P = true) :
    ∃ es s', Run small s es s' ∧ P es s' = true := by
  unfold after? at h
  cases hp : play s as with
  | none => simp [hp] at h
  | some y =>
    obtain ⟨es, s'⟩ := y
    exact ⟨es, s', play_run hp, by simpa [hp] using h⟩

/-- A step of thread `i`. -/
abbrev go (i : Nat) : Nat × Act Nat Nat := (i, .go)

/-- All the threads are idle. -/
def restB (s : State Nat Nat) : Bool := s.threads.all fun p => match p with | .idle => true | _ => false

theorem restB_rest {s : State Nat Nat} (h : restB s = true) : AtRest s := by
  intro p hp
  have := List.all_eq_true.1 h p hp
  cases p <;> simp at this ⊢

/-- A panic of thread `i`. -/
def panicB (l : List (Ev Nat Nat)) : Bool := l.any fun e => match e with | .panicked _ _ => true | _ => false

theorem panicB_mem {l : List (Ev Nat Nat)} (h : panicB l = true) : ∃ i o, Ev.panicked i o ∈ l := by
  obtain ⟨e, he, h⟩ := List.any_eq_true.1 h
  cases e <;> simp at h
  exact ⟨_, _, he⟩

/-- A `take` of `k` returned an element with another key. -/
def wrongB (l : List (Ev Nat Nat)) : Bool :=
  l.any fun e => match e with | .returned _ (.take k) (.opt (some e)) => decide (e.1 ≠ k) | _ => false

theorem wrongB_mem {l : List (Ev Nat Nat)} (h : wrongB l = true) :
    ∃ i k e, Ev.returned i (.take k) (.opt (some e)) ∈ l ∧ e.1 ≠ k := by
  obtain ⟨e, he, h⟩ := List.any_eq_true.1 h
  match e, h with
  | .returned i (.take k) (.opt (some x)), h => exact ⟨i, k, x, he, by simpa using h⟩

theorem small_small : SmallCodec small := by
  intro e b h
  simp only [small] at h
  split at h
  · rename_i hb
    simp only [Option.some.injEq] at h
    subst h
    simp only [List.length_cons, List.length_replicate]
    omega
  · simp at h

/-- Two threads push one element each in a container with room for one: both read the size first. -/
def twoPushes : List (Nat × Act Nat Nat) :=
  [(0, .call (.push [(1, 0)])), (1, .call (.push [(2, 0)])), go 0, go 1, go 0, go 1, go 0, go 1, go 0, go 1]

/-- **C91, the capacity is exceeded**: two elements of 2 bytes in a container of 2 bytes. -/
theorem C91_over_capacity : ∃ (l : List (Ev Nat Nat)) (s : State Nat Nat),
    Run small (.new (ByteStream.new 2) 2) l s ∧ AtRest s ∧ (byteStream small).capacity s.cont = 2 ∧
    (byteStream small).size s.cont = 4 := by
  obtain ⟨l, s, h1, h2⟩ := of_after (s := .new (ByteStream.new 2) 2) (as := twoPushes)
    (P := fun _ s => restB s && (decide (s.cont.capacity = 2) && decide (s.cont.size = 4)))
    (by decide +kernel)
  simp only [Bool.and_eq_true, decide_eq_true_eq] at h2
  exact ⟨l, s, h1, restB_rest h2.1, h2.2⟩

/-- Two threads take the same key: both find it at the same place. -/
def twoTakes : List (Nat × Act Nat Nat) :=
  [(0, .call (.push [(1, 0), (2, 0)])), go 0, go 0, go 0, go 0, go 0,
   (0, .call (.take 1)), (1, .call (.take 1)), go 0, go 1, go 0, go 1, go 0, go 1, go 0, go 1, go 0, go 1]

/-- **C91, the wrong element is returned**: `take` of one key returns the element with another. -/
theorem C91_wrong_key : ∃ (l : List (Ev Nat Nat)) (s : State Nat Nat) (i k : Nat) (e : Nat × Nat),
    Run small (.new (ByteStream.new 4) 2) l s ∧ Ev.returned i (.take k) (.opt (some e)) ∈ l ∧ e.1 ≠ k := by
  obtain ⟨l, s, h1, h2⟩ := of_after (s := .new (ByteStream.new 4) 2) (as := twoTakes)
    (P := fun l _ => wrongB l) (by decide +kernel)
  obtain ⟨i, k, e, h3, h4⟩ := wrongB_mem h2
  exact ⟨l, s, i, k, e, h1, h3, h4⟩

/-- Two threads take the last of three elements. -/
def lastTakes : List (Nat × Act Nat Nat) :=
  [(0, .call (.push [(1, 0), (2, 0), (3, 0)])), go 0, go 0, go 0, go 0, go 0, go 0,
   (0, .call (.take 3)), (1, .call (.take 3)), go 0, go 1, go 0, go 1, go 0, go 1, go 0, go 0]

/-- **C91, a call panics and loses an element**: the second `take` finds nothing at the end of the
stream, which it shortens nevertheless. -/
theorem C91_panic_and_loss : ∃ (l : List (Ev Nat Nat)) (s : State Nat Nat),
    Run small (.new (ByteStream.new 6) 2) l s ∧ (∃ i o, Ev.panicked i o ∈ l) ∧ inHand s = [] ∧
    given l = [(1, 0), (2, 0), (3, 0)] ∧ inside small s.cont = [(1, 0)] ∧ returned l = [(3, 0)] := by
  obtain ⟨l, s, h1, h2⟩ := of_after (s := .new (ByteStream.new 6) 2) (as := lastTakes)
    (P := fun l s => panicB l && (decide (inHand s = []) && (decide (given l = [(1, 0), (2, 0), (3, 0)]) &&
      (decide (inside small s.cont = [(1, 0)]) && decide (returned l = [(3, 0)])))))
    (by decide +kernel)
  simp only [Bool.and_eq_true, decide_eq_true_eq] at h2
  exact ⟨l, s, h1, panicB_mem h2.1, h2.2⟩

/-- A `pop` and a `take` of the last element: the `pop` shortens the stream and returns normally. -/
def popTake : List (Nat × Act Nat Nat) :=
  [(0, .call (.push [(1, 0), (2, 0), (3, 1)])), go 0, go 0, go 0, go 0, go 0, go 0,
   (0, .call (.pop 6)), (1, .call (.take 2)), go 0, go 1, go 1, go 1, go 1, go 1, go 0, go 0, go 0]

/-- **C91, an element is lost though no call panics**: all calls have returned, one element is in no
result and not in the container. -/
theorem C91_silent_loss : ∃ (l : List (Ev Nat Nat)) (s : State Nat Nat),
    Run small (.new (ByteStream.new 8) 2) l s ∧ AtRest s ∧ panicB l = false ∧
    ¬ (inside small s.cont ++ returned l).Perm (given l) := by
  obtain ⟨l, s, h1, h2⟩ := of_after (s := .new (ByteStream.new 8) 2) (as := popTake)
    (P := fun l s => restB s && (!panicB l && decide ((inside small s.cont ++ returned l).length ≠ (given l).length)))
    (by decide +kernel)
  simp only [Bool.and_eq_true, decide_eq_true_eq, Bool.not_eq_true'] at h2
  exact ⟨l, s, h1, restB_rest h2.1, h2.2.1, fun hc => h2.2.2 hc.length_eq⟩

/-- **C91 is false in full**, by its capacity already. -/
theorem C91_false : ¬ C91_full := by
  intro h
  obtain ⟨l, s, h1, -, -, h3⟩ := C91_over_capacity
  have := (h Nat Nat inferInstance inferInstance small small_small 2 2 l s h1).2.1
  rw [h3] at this
  omega

/-- Each part of it is false. -/
theorem C91_false_parts :
    (∃ C n l s, Run small (.new (ByteStream.new C) n) l s ∧ ∃ i o, Ev.panicked i o ∈ l) ∧
    (∃ C n l s, Run small (.new (ByteStream.new C) n) l s ∧ C < (byteStream small).size s.cont) ∧
    (∃ C n l s, Run small (.new (ByteStream.new C) n) l s ∧
      ∃ i k e, Ev.returned i (.take k) (.opt (some e)) ∈ l ∧ e.1 ≠ k) ∧
    (∃ C n l s, Run small (.new (ByteStream.new C) n) l s ∧ AtRest s ∧
      ¬ (inside small s.cont ++ returned l).Perm (given l)) := by
  obtain ⟨l1, s1, a1, a2, -⟩ := C91_panic_and_loss
  obtain ⟨l2, s2, b1, -, -, b4⟩ := C91_over_capacity
  obtain ⟨l3, s3, i, k, e, c1, c2, c3⟩ := C91_wrong_key
  obtain ⟨l4, s4, d1, d2, -, d4⟩ := C91_silent_loss
  exact ⟨⟨_, _, l1, s1, a1, a2⟩, ⟨_, _, l2, s2, b1, by rw [b4]; omega⟩, ⟨_, _, l3, s3, c1, i, k, e, c2, c3⟩,
    ⟨_, _, l4, s4, d1, d2, d4⟩⟩

/-! ## What holds -/

/-- **C91, what holds whatever the threads do**: elements in the container, in the hands of threads and
returned are elements pushed, each at most once; the size is at most the number of threads times the
capacity; only `take`, `take_multiple` and `pop` panic. -/
theorem C91_partial (cd : Codec (K × V)) (hsmall : SmallCodec cd) (C n : Nat) (l : List (Ev K V))
    (s : State K V) (h : Run cd (.new (ByteStream.new C) n) l s) :
    (inside cd s.cont ++ inHand s ++ returned l).Subperm (given l) ∧
    (byteStream cd).capacity s.cont = C ∧ (byteStream cd).size s.cont ≤ n * C ∧
    ∀ i o, Ev.panicked i o ∈ l → (∃ k, o = .take k) ∨ (∃ ks, o = .takeMultiple ks) ∨ ∃ m, o = .pop m := by
  obtain ⟨ls, hI⟩ := h.inv hsmall
  refine ⟨?_, hI.cap, ?_, hI.panics⟩
  · have h1 := hI.given
    have h2 := inside_perm hI.streams
    unfold inHand
    subperms [h1] [h2]
  · have hsz : s.cont.size = total (csz cd) ls.flatten := by rw [ByteStream.size, hI.streams.size]
    have := hI.bound
    show s.cont.size ≤ _
    omega

/-- **C91 with one consumer**: if at any time at most one thread is in a call of `take`, `take_multiple`,
`pop` or `flush`, no call panics, and `take` and `take_multiple` return elements with the keys asked;
without `flush` (see C27), every element pushed is in the container, in the hands of a thread or was
returned, once.  The size may still exceed the capacity. -/
theorem C91_one_consumer_partial (cd : Codec (K × V)) (hsmall : SmallCodec cd) (C n : Nat)
    (l : List (Ev K V)) (s : State K V) (h : Run cd (.new (ByteStream.new C) n) l s)
    (hone : OneRemover l) :
    (∀ i o, Ev.panicked i o ∉ l) ∧
    (∀ i k r, Ev.returned i (.take k) r ∈ l → ∃ x, r = .opt x ∧ ∀ e, x = some e → e.1 = k) ∧
    (∀ i ks r, Ev.returned i (.takeMultiple ks) r ∈ l →
      ∃ out, r = .keyed out ks ∧ (out.map Prod.fst).Sublist ks) ∧
    (NoFlush l → (inside cd s.cont ++ inHand s ++ returned l).Perm (given l)) ∧
    (NoFlush l → AtRest s → (inside cd s.cont ++ returned l).Perm (given l)) := by
  obtain ⟨ls, hE⟩ := h.exact hsmall hone
  have key : NoFlush l → (inside cd s.cont ++ inHand s ++ returned l).Perm (given l) := by
    intro hnf
    have h1 := hE.given hnf
    have h2 := inside_perm hE.streams
    unfold inHand
    perms [h1, h2]
  refine ⟨hE.panics, fun i k r hr => hE.answers i _ r hr, fun i ks r hr => hE.answers i _ r hr, key, ?_⟩
  intro hnf hr
  have := key hnf
  rwa [inHand_rest hr, List.append_nil] at this

/-- **C91 with one consumer, `take`**: a `take` of a key which is in the container when it is called
returns an element. -/
theorem C91_take_finds_partial (cd : Codec (K × V)) (hsmall : SmallCodec cd) (C n : Nat)
    (l l' : List (Ev K V)) (s s' : State K V) (i : Nat) (k : K) (r : Obs K V)
    (h : Run cd (.new (ByteStream.new C) n) l s) (hk : ∃ v, (k, v) ∈ inside cd s.cont)
    (h' : Run cd s (l' ++ [.returned i (.take k) r]) s')
    (hfirst : l'.head? = some (.called i (.take k))) (honly : ∀ o r, Ev.returned i o r ∉ l')
    (hone : OneRemover (l ++ (l' ++ [.returned i (.take k) r]))) :
    ∃ e, r = .opt (some e) := by
  have hpre : ∀ {m : List (Ev K V)} {t : State K V}, Run cd s m t →
      m <+: l' ++ [Ev.returned i (.take k) r] → (∀ o r, Ev.returned i o r ∉ m) → m ≠ [] →
      m.head? = some (.called i (.take k)) →
      ∃ ls x, Exact cd (l ++ m) t ls ∧ t.threads[i]? = some x ∧ OnTrack k ls x := by
    intro m t hm
    induction hm with
    | nil => intro _ _ hne; exact absurd rfl hne
    | @snoc m t t' j a e hm hs ih =>
      intro hp ho _ hh
      have hpm : m <+: l' ++ [Ev.returned i (.take k) r] := (List.prefix_append _ _).trans hp
      have hlen : (removers (l ++ m)).length ≤ 1 := hone _ ((List.prefix_append_right_inj l).2 hpm)
      by_cases hm0 : m = []
      · subst hm0
        simp only [List.nil_append, List.head?_cons, Option.some.injEq] at hh
        subst hh
        obtain rfl := Run.nil_inv hm rfl
        obtain ⟨ls, hE⟩ := h.exact hsmall fun l₀ hl₀ => hone l₀ (hl₀.trans (List.prefix_append _ _))
        obtain ⟨ls', hE'⟩ := hE.step hsmall (by simpa using hlen) hs
        rcases step_cases hs with ⟨o, hq, rfl, he⟩ | ⟨_, _, _, _, he⟩ | ⟨_, _, _, _, _, _, he⟩ |
          ⟨_, _, _, _, _, _, he⟩
        · cases he
          refine ⟨ls', .start (.take k), by simpa using hE', ?_, rfl, ?_⟩
          · have hlt : i < t.threads.length := by
              by_contra hc; rw [List.getElem?_eq_none (by omega)] at hq; simp at hq
            exact List.getElem?_set_self hlt
          · obtain ⟨v, hv⟩ := hk
            exact ⟨v, (inside_perm hE'.streams).subset hv⟩
        · cases he
        · cases he
        · cases he
      · obtain ⟨ls, x, hE, hx, ht⟩ := ih hpm (fun o r hc => ho o r (List.mem_append_left _ hc)) hm0
          (by cases m with
              | nil => exact absurd rfl hm0
              | cons y m => simpa using hh)
        rcases hE.onTrack hsmall hlen hx ht hs with ⟨o, r', rfl, -⟩ | ⟨ls', x', g1, g2, g3⟩
        · exact absurd (by simp) (ho o r')
        · exact ⟨ls', x', by rw [← List.append_assoc]; exact g1, g2, g3⟩
  obtain ⟨t, j, a, hm, hs⟩ := Run.snoc_inv h' rfl
  have hne : l' ≠ [] := by rintro rfl; simp at hfirst
  obtain ⟨ls, x, hE, hx, ht⟩ := hpre hm (List.prefix_append _ _) honly hne hfirst
  rcases step_cases hs with ⟨o, _, _, he⟩ | ⟨o, r', hq, _, he⟩ | ⟨_, _, _, _, _, _, he⟩ |
    ⟨_, _, _, _, _, _, he⟩
  · cases he
  · cases he
    rw [hq] at hx
    obtain rfl := Option.some.inj hx
    obtain ⟨-, e, he⟩ := ht
    exact ⟨e, he⟩
  · cases he
  · cases he

/-! ### One thread at a time -/

/-- Steps of one call. -/
inductive Steps (cd : Codec (K × V)) : ByteStream → Pc K V → Nat → ByteStream → Pc K V → Prop where
  | refl (s p) : Steps cd s p 0 s p
  | head {s s₁ s₂ p p₁ p₂ n} : next cd s p = some (.inl p₁, s₁) → Steps cd s₁ p₁ n s₂ p₂ →
      Steps cd s p (n + 1) s₂ p₂

theorem Steps.run {cd : Codec (K × V)} {c c' : ByteStream} {p p' : Pc K V} {n : Nat}
    (h : Steps cd c p n c' p') : ∀ (s : State K V) (i : Nat), s.threads[i]? = some p → s.cont = c →
    Run cd s (List.replicate n (.silent i)) ⟨c', s.threads.set i p'⟩ := by
  induction h with
  | refl c p =>
    intro s i hp hc
    have : s.threads.set i p = s.threads := by
      apply List.ext_getElem?
      intro j
      by_cases hj : j = i
      · subst hj
        have hlt : j < s.threads.length := by
          by_contra hc; rw [List.getElem?_eq_none (by omega)] at hp; simp at hp
        rw [List.getElem?_set_self hlt, hp]
      · rw [List.getElem?_set_ne (fun h => hj h.symm)]
    rw [this, ← hc]
    exact .nil
  | @head c c₁ c₂ p p₁ p₂ n hn _ ih =>
    intro s i hp hc
    have hlt : i < s.threads.length := by
      by_contra hc; rw [List.getElem?_eq_none (by omega)] at hp; simp at hp
    have hs : step cd s i .go = some (⟨c₁, s.threads.set i p₁⟩, .silent i) := by
      rw [← hc] at hn
      unfold step
      rw [hp]
      cases p <;> simp_all [next]
    have := ih ⟨c₁, s.threads.set i p₁⟩ i (List.getElem?_set_self hlt) rfl
    rw [List.set_set] at this
    rw [List.replicate_succ]
    exact Run.trans (Run.one hs) this

theorem push_steps (cd : Codec (K × V)) (l : List (K × V)) : ∀ (todo : List (K × V)) (t : Nat)
    (out r : List (K × V)) (s s' : ByteStream), ByteStream.pushLoop cd todo t s = .ok (r, s') →
    ∃ n, Steps cd s (.push l todo t out) n s' (.ret (.push l) (.many (out ++ r))) := by
  intro todo
  induction todo with
  | nil =>
    intro t out r s s' h
    simp only [ByteStream.pushLoop, Res.ok.injEq, Prod.mk.injEq] at h
    obtain ⟨rfl, rfl⟩ := h
    exact ⟨1, .head rfl (by rw [List.append_nil]; exact .refl _ _)⟩
  | cons e todo ih =>
    intro t out r s s' h
    rw [pushLoop_cons] at h
    cases h1 : pushOne cd e t s with
    | panic => simp [h1] at h
    | ok x =>
      obtain ⟨o, t1, s1⟩ := x
      simp only [h1, Res.ok_bind] at h
      cases h2 : ByteStream.pushLoop cd todo t1 s1 with
      | panic => simp [h2] at h
      | ok y =>
        obtain ⟨r1, s2⟩ := y
        simp only [h2, Res.ok_bind, Res.pure_eq, Res.ok.injEq, Prod.mk.injEq] at h
        obtain ⟨rfl, rfl⟩ := h
        obtain ⟨n, hn⟩ := ih t1 (out ++ o) r1 s1 s2 h2
        rw [List.append_assoc] at hn
        exact ⟨n + 1, .head (by simp [next, h1]) hn⟩

theorem pop_steps (cd : Codec (K × V)) (m : Nat) : ∀ (todo : List (Nat × Nat))
    (out r : List (K × V)) (s : ByteStream) (st : List (Option IOVec)),
    ByteStream.removeAll cd todo s.stream = .ok (r, st) →
    ∃ n, Steps cd s (.pop m todo out) n { s with stream := st } (.ret (.pop m) (.many (out ++ r))) := by
  intro todo
  induction todo with
  | nil =>
    intro out r s st h
    simp only [ByteStream.removeAll, Res.ok.injEq, Prod.mk.injEq] at h
    obtain ⟨rfl, rfl⟩ := h
    exact ⟨1, .head rfl (by rw [List.append_nil]; exact .refl _ _)⟩
  | cons x todo ih =>
    intro out r s st h
    obtain ⟨i, j⟩ := x
    rw [ByteStream.removeAll] at h
    cases h1 : ByteStream.removeAt cd s.stream i j with
    | panic => simp [h1] at h
    | ok y =>
      obtain ⟨o, st1⟩ := y
      simp only [h1, Res.ok_bind] at h
      cases o with
      | none =>
        simp only [Res.pure_eq, Res.ok.injEq, Prod.mk.injEq] at h
        obtain ⟨rfl, rfl⟩ := h
        exact ⟨1, .head (by simp [next, h1]; exact ⟨rfl, rfl⟩) (by rw [List.append_nil]; exact .refl _ _)⟩
      | some e =>
        simp only at h
        cases h2 : ByteStream.removeAll cd todo st1 with
        | panic => simp [h2] at h
        | ok z =>
          obtain ⟨r1, st2⟩ := z
          simp only [h2, Res.ok_bind, Res.pure_eq, Res.ok.injEq, Prod.mk.injEq] at h
          obtain ⟨rfl, rfl⟩ := h
          obtain ⟨n, hn⟩ := ih (out ++ [e]) r1 { s with stream := st1 } st2 h2
          rw [List.append_assoc] at hn
          exact ⟨n + 1, .head (by simp [next, h1]) hn⟩

theorem take_steps (cd : Codec (K × V)) (o : Op K V) : ∀ (todo : List K)
    (out r : List (K × V)) (s s' : ByteStream),
    defaultTakeMultiple (ByteStream.take cd) s todo = .ok (r, s') →
    ∃ n, Steps cd s (.taking o todo out) n s' (.ret o (result o (out ++ r))) := by
  intro todo
  induction todo with
  | nil =>
    intro out r s s' h
    simp only [defaultTakeMultiple, Res.ok.injEq, Prod.mk.injEq] at h
    obtain ⟨rfl, rfl⟩ := h
    exact ⟨1, .head rfl (by rw [List.append_nil]; exact .refl _ _)⟩
  | cons k todo ih =>
    intro out r s s' h
    rw [defaultTakeMultiple, ByteStream.take] at h
    cases h1 : ByteStream.findGo cd k 0 s.stream with
    | panic => simp [h1] at h
    | ok x =>
      cases x with
      | none =>
        simp only [h1, Res.ok_bind, Res.pure_eq] at h
        cases h2 : defaultTakeMultiple (ByteStream.take cd) s todo with
        | panic => simp [h2] at h
        | ok z =>
          obtain ⟨r1, s2⟩ := z
          simp only [h2, Res.ok_bind, Option.toList, List.nil_append, Res.ok.injEq, Prod.mk.injEq] at h
          obtain ⟨rfl, rfl⟩ := h
          obtain ⟨n, hn⟩ := ih out r1 s s2 h2
          exact ⟨n + 1, .head (by simp [next, h1]) hn⟩
      | some y =>
        obtain ⟨i, j⟩ := y
        simp only [h1, Res.ok_bind] at h
        cases h3 : ByteStream.removeAt cd s.stream i j with
        | panic => simp [h3] at h
        | ok w =>
          obtain ⟨x, st1⟩ := w
          cases x with
          | none => simp [h3, Res.unwrap] at h
          | some e =>
            simp only [h3, Res.ok_bind, Res.unwrap_some, Res.pure_eq] at h
            cases h2 : defaultTakeMultiple (ByteStream.take cd) { s with stream := st1 } todo with
            | panic => simp [h2] at h
            | ok z =>
              obtain ⟨r1, s2⟩ := z
              simp only [h2, Res.ok_bind, Option.toList, List.singleton_append, Res.ok.injEq,
                Prod.mk.injEq] at h
              obtain ⟨rfl, rfl⟩ := h
              obtain ⟨n, hn⟩ := ih (out ++ [e]) r1 { s with stream := st1 } s2 h2
              rw [List.append_assoc] at hn
              exact ⟨n + 1 + 1, .head (by simp [next, h1]; exact ⟨rfl, rfl⟩)
                (.head (by simp [next, h3]) hn)⟩

/-- **C91, one thread at a time**: a call made when no other thread moves does what it does on a
container that is not shared (C25 to C27; `take_multiple` is a loop of `take`). -/
theorem C91_alone (cd : Codec (K × V)) (s : State K V) (i : Nat) (o : Op K V) (r : Obs K V)
    (c : ByteStream) (hi : s.threads[i]? = some .idle)
    (ho : (viaDefault (byteStream cd)).observe s.cont o = .ok (r, c)) :
    ∃ n, Run cd s (.called i o :: (List.replicate n (.silent i) ++ [.returned i o r])) ⟨c, s.threads⟩ := by
  have key : ∃ n, Steps cd s.cont (.start o) n c (.ret o r) := by
    cases o with
    | contains k =>
      simp only [Block.observe, viaDefault, byteStream] at ho
      cases h1 : ByteStream.containsGo cd k s.cont.stream with
      | panic => simp [h1] at ho
      | ok b =>
        simp only [h1, Res.ok_bind, Res.pure_eq, Res.ok.injEq, Prod.mk.injEq] at ho
        obtain ⟨rfl, rfl⟩ := ho
        exact ⟨1, .head (by simp [next, begin, h1]) (.refl _ _)⟩
    | take k =>
      simp only [Block.observe, viaDefault, byteStream] at ho
      cases h1 : ByteStream.take cd s.cont k with
      | panic => simp [h1] at ho
      | ok x =>
        obtain ⟨x, c1⟩ := x
        simp only [h1, Res.ok_bind, Res.pure_eq, Res.ok.injEq, Prod.mk.injEq] at ho
        obtain ⟨rfl, rfl⟩ := ho
        obtain ⟨n, hn⟩ := take_steps cd (.take k) [k] [] x.toList s.cont c1
          (by simp [defaultTakeMultiple, h1])
        refine ⟨n + 1, .head (by simp [next, begin]; exact ⟨rfl, rfl⟩) ?_⟩
        have : result (.take k) ([] ++ x.toList) = Obs.opt x := by cases x <;> rfl
        rwa [this] at hn
    | takeMultiple ks =>
      simp only [Block.observe, viaDefault, byteStream] at ho
      cases h1 : defaultTakeMultiple (ByteStream.take cd) s.cont ks with
      | panic => simp [h1] at ho
      | ok x =>
        obtain ⟨out, c1⟩ := x
        simp only [h1, Res.ok_bind, Res.pure_eq, Res.ok.injEq, Prod.mk.injEq] at ho
        obtain ⟨rfl, rfl⟩ := ho
        obtain ⟨n, hn⟩ := take_steps cd (.takeMultiple ks) ks [] out s.cont c1 h1
        exact ⟨n + 1, .head (by simp [next, begin]) hn⟩
    | pop m =>
      simp only [Block.observe, viaDefault, byteStream, popPlaces_pop] at ho
      cases h1 : popPlaces cd s.cont m with
      | panic => simp [h1] at ho
      | ok ps =>
        simp only [h1, Res.ok_bind] at ho
        cases h2 : ByteStream.removeAll cd ps s.cont.stream with
        | panic => simp [h2] at ho
        | ok y =>
          obtain ⟨out, st⟩ := y
          simp only [h2, Res.ok_bind, Res.pure_eq, Res.ok.injEq, Prod.mk.injEq] at ho
          obtain ⟨rfl, rfl⟩ := ho
          obtain ⟨n, hn⟩ := pop_steps cd m ps [] out s.cont st h2
          exact ⟨n + 1, .head (by simp [next, begin, h1]) hn⟩
    | push l =>
      simp only [Block.observe, viaDefault, byteStream, ByteStream.push] at ho
      cases h1 : ByteStream.pushLoop cd l s.cont.size s.cont with
      | panic => simp [h1] at ho
      | ok y =>
        obtain ⟨out, c1⟩ := y
        simp only [h1, Res.ok_bind, Res.pure_eq, Res.ok.injEq, Prod.mk.injEq] at ho
        obtain ⟨rfl, rfl⟩ := ho
        obtain ⟨n, hn⟩ := push_steps cd l l s.cont.size [] out s.cont c1 h1
        exact ⟨n + 1, .head (by simp [next, begin]) hn⟩
    | flush =>
      simp only [Block.observe, viaDefault, byteStream] at ho
      cases h1 : ByteStream.flush cd s.cont with
      | panic => simp [h1] at ho
      | ok y =>
        obtain ⟨out, c1⟩ := y
        simp only [h1, Res.ok_bind, Res.pure_eq, Res.ok.injEq, Prod.mk.injEq] at ho
        obtain ⟨rfl, rfl⟩ := ho
        exact ⟨1, .head (by simp [next, begin, h1]) (.refl _ _)⟩
  obtain ⟨n, hn⟩ := key
  refine ⟨n, ?_⟩
  have hlt : i < s.threads.length := by
    by_contra hc; rw [List.getElem?_eq_none (by omega)] at hi; simp at hi
  have h1 : step cd s i (.call o) = some (⟨s.cont, s.threads.set i (.start o)⟩, .called i o) := by
    simp [step, hi]
  have h2 := hn.run ⟨s.cont, s.threads.set i (.start o)⟩ i (List.getElem?_set_self hlt) rfl
  rw [List.set_set] at h2
  have h3 : step cd ⟨c, s.threads.set i (.ret o r)⟩ i .go = some (⟨c, s.threads⟩, .returned i o r) := by
    have hset : (s.threads.set i (.ret o r)).set i .idle = s.threads := by
      rw [List.set_set]
      apply List.ext_getElem?
      intro j
      by_cases hj : j = i
      · subst hj; rw [List.getElem?_set_self hlt, hi]
      · rw [List.getElem?_set_ne (fun h => hj h.symm)]
    simp [step, List.getElem?_set_self hlt, hset]
  exact Run.trans (Run.one h1) (Run.trans h2 (Run.one h3))

/-! ### Non-vacuity -/

/-- A producer in the middle of its `push` while a consumer takes. -/
def produceConsume : List (Nat × Act Nat Nat) :=
  [(0, .call (.push [(1, 0), (2, 0), (3, 1)])), go 0, go 0, (1, .call (.take 1)), go 1, go 1, go 0, go 1,
   go 1, go 0, go 1, go 0, go 0, (1, .call (.takeMultiple [3, 9, 2])), go 1, go 1, go 1, go 1, go 1, go 1,
   go 1, go 1]

/-- At most one remover, tested. -/
def oneB (l : List (Ev Nat Nat)) : Bool :=
  (List.range (l.length + 1)).all fun n => decide ((removers (l.take n)).length ≤ 1)

theorem oneB_one {l : List (Ev Nat Nat)} (h : oneB l = true) : OneRemover l := by
  intro l' hl'
  have h1 := List.prefix_iff_eq_take.1 hl'
  have h2 := List.all_eq_true.1 h l'.length (List.mem_range.2 (by have := hl'.length_le; omega))
  rw [← h1] at h2
  simpa using h2

/-- No `flush`, tested. -/
def noFlushB (l : List (Ev Nat Nat)) : Bool :=
  l.all fun e => match e with | .called _ .flush => false | _ => true

theorem noFlushB_no {l : List (Ev Nat Nat)} (h : noFlushB l = true) : NoFlush l := by
  intro i hi
  have := List.all_eq_true.1 h _ hi
  simp at this

/-- The hypotheses of `C91_one_consumer_partial` are met by a run where `push` and `take` interleave. -/
theorem C91_example : ∃ (l : List (Ev Nat Nat)) (s : State Nat Nat),
    Run small (.new (ByteStream.new 8) 2) l s ∧ OneRemover l ∧ NoFlush l ∧ AtRest s ∧
    returned l = [(1, 0), (3, 1), (2, 0)] ∧ inside small s.cont = [] := by
  obtain ⟨l, s, h1, h2⟩ := of_after (s := .new (ByteStream.new 8) 2) (as := produceConsume)
    (P := fun l s => oneB l && (noFlushB l && (restB s && (decide (returned l = [(1, 0), (3, 1), (2, 0)]) &&
      decide (inside small s.cont = [])))))
    (by decide +kernel)
  simp only [Bool.and_eq_true, decide_eq_true_eq] at h2
  exact ⟨l, s, h1, oneB_one h2.1, noFlushB_no h2.2.1, restB_rest h2.2.2.1, h2.2.2.2⟩

/-- The first event is a call of `take(1)` by thread 1, the last one its return, the only one. -/
def takeB (l : List (Ev Nat Nat)) : Bool :=
  (match l with | .called 1 (.take 1) :: _ => true | _ => false) &&
  (match l.getLast? with | some (.returned 1 (.take 1) _) => true | _ => false) &&
  l.dropLast.all fun e => match e with | .returned _ _ _ => false | _ => true

theorem takeB_spec {l : List (Ev Nat Nat)} (h : takeB l = true) : ∃ l' r,
    l = l' ++ [.returned 1 (.take 1) r] ∧ l'.head? = some (.called 1 (.take 1)) ∧
    ∀ o r, Ev.returned 1 o r ∉ l' := by
  simp only [takeB, Bool.and_eq_true] at h
  obtain ⟨⟨h1, h2⟩, h3⟩ := h
  have hr : ∃ r, l.getLast? = some (.returned 1 (.take 1) r) := by
    revert h2
    split
    · rename_i r hr; intro _; exact ⟨r, hr⟩
    · simp
  obtain ⟨r, hr⟩ := hr
  refine ⟨l.dropLast, r, (List.dropLast_append_getLast? _ hr).symm, ?_, ?_⟩
  · match l, h1 with
    | .called 1 (.take 1) :: x :: l, _ => rfl
    | [.called 1 (.take 1)], _ => simp at hr
  · intro o r hm
    have := List.all_eq_true.1 h3 _ hm
    simp at this

/-- The hypotheses of `C91_take_finds_partial` are met: after a `push` by one thread, a `take` by the
other, the first thread pushing meanwhile. -/
theorem C91_take_example : ∃ (l l' : List (Ev Nat Nat)) (s s' : State Nat Nat) (r : Obs Nat Nat),
    Run small (.new (ByteStream.new 8) 2) l s ∧ (∃ v, (1, v) ∈ inside small s.cont) ∧
    Run small s (l' ++ [.returned 1 (.take 1) r]) s' ∧ l'.head? = some (.called 1 (.take 1)) ∧
    (∀ o r, Ev.returned 1 o r ∉ l') ∧ OneRemover (l ++ (l' ++ [.returned 1 (.take 1) r])) := by
  have h : after? (.new (ByteStream.new 8) 2) [(0, .call (.push [(1, 0), (2, 0)])), go 0, go 0]
      (fun l s => decide (1 ∈ (inside small s.cont).map Prod.fst) &&
        after? s [(1, .call (.take 1)), go 1, go 0, go 1, go 0, go 1, go 1, go 1]
          (fun l' _ => takeB l' && oneB (l ++ l'))) = true := by decide +kernel
  obtain ⟨l, s, h1, h2⟩ := of_after h
  simp only [Bool.and_eq_true, decide_eq_true_eq] at h2
  obtain ⟨l2, s', h3, h4⟩ := of_after h2.2
  simp only [Bool.and_eq_true] at h4
  obtain ⟨l', r, rfl, h5, h6⟩ := takeB_spec h4.1
  obtain ⟨x, hx, hx1⟩ := List.mem_map.1 h2.1
  exact ⟨l, l', s, s', r, h1, ⟨x.2, by rw [← hx1]; exact hx⟩, h3, h5, h6, oneB_one h4.2⟩

end Byoc.ConcStreamProps
