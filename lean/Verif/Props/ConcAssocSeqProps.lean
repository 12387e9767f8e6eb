import Verif.Proofs.ConcAssocSeq
import Verif.Props.ConcAssocProps

/-!
# C75, C76: an `Associative` of `Sequential` containers shared by threads
-/

namespace Byoc
namespace ConcAssocSeqProps

open Byoc.AssocSeq
open Byoc.Assoc (AEv AState ARun Part Prog Ok NotPop AInv givenIn backIn)
open Byoc.Seq (Container SCall SObs SState SAct)
open AssocProps (WellPlaced)
open SequentialProps (arr)
open ArrayProps (natSorter)
open ConcAssocProps (twoSets twoSets_inv twoSets_placed)

variable {K V : Type}

/-- The sets a call is about: those its keys belong to, or all the sets if the call is about the whole
container. -/
def Uses (hash : K → Nat) (n : Nat) : SCall K V → Nat → Prop
  | .op (.contains k), j => hash k % n = j
  | .op (.take k), j => hash k % n = j
  | .get k, j => hash k % n = j
  | .getMut k, j => hash k % n = j
  | .op (.takeMultiple ks), j => ∃ k ∈ ks, hash k % n = j
  | .op (.push l), j => ∃ e ∈ l, hash e.1 % n = j
  | _, _ => True

def IsPush : SCall K V → Prop
  | .op (.push _) => True
  | _ => False

/-- Thread `i` is in call `c`. -/
def InCall {S : Type} (s : QState K V S) (i : Nat) (c : SCall K V) : Prop :=
  (∃ done p, s.threads[i]? = some (.run c done p)) ∨
  ∃ done j d next, s.threads[i]? = some (.inSet c done j d next)

/-- Thread `i` is in call `c`, or holds the cell that call `c` returned. -/
def Engaged {S : Type} (s : QState K V S) (i : Nat) (c : SCall K V) : Prop :=
  InCall s i c ∨ ∃ j, s.threads[i]? = some (.held c j)

/-- The call `c` of thread `i` cannot do its next step: it panics, or it waits. -/
def Disturbed (hash : K → Nat) (C : Container K V) (s : QState K V C.block.State) (i : Nat)
    (c : SCall K V) : Prop :=
  InCall s i c ∧ (qstep hash C s i .go = none ∨
    ∃ s' done, qstep hash C s i .go = some (s', .vis (.panicked i c done)))

/-- Full statement of C75: a call (other than pop, see C20) panics or waits only if another thread is at
the same time in a call, or holds a cell, of the same set. -/
def C75_full : Prop :=
  ∀ (K V : Type) (hash : K → Nat) (B : Block K V) (G : GetOps B) (I : B.State → Prop)
    (ec : B.State → List (K × V)) (PreF : (V → V) → Prop) (s₀ : List B.State) (n : Nat)
    (l : List (QEv K V)) (s : QState K V B.State) (i : Nat) (c : SCall K V),
    Lawful B I ec (fun _ => True) → GetLawful B G I ec PreF → PreF id → (Container.ofGet B G).ReadOnly →
    s₀ ≠ [] → (∀ x ∈ s₀, I x) → WellPlaced hash ec s₀ →
    QRun hash (.ofGet B G) (.new s₀ n) l s → (∀ i c done, .vis (.panicked i c done) ∉ l) →
    NotPop c → Disturbed hash (.ofGet B G) s i c →
    ∃ i' c', i' ≠ i ∧ Engaged s i' c' ∧ ∃ j, Uses hash s₀.length c j ∧ Uses hash s₀.length c' j

theorem reaches_uses {hash : K → Nat} {n : Nat} {c : SCall K V} {j : Nat} (h : Reaches hash n c j) :
    IsPush c ∨ Uses hash n c j := by
  cases c with
  | op o =>
    cases o with
    | push l => exact .inl trivial
    | _ => exact .inr h
  | _ => exact .inr h

/-- A thread that is busy in set `j`, or holds its lock. -/
theorem engaged_of_look {S : Type} {hash : K → Nat} {s : QState K V S} (hI : QInv hash s) {i j : Nat}
    {x : SState K V S} {q : Seq.Pc K V S} (hx : s.sets[j]? = some x) (hq : x.threads[i]? = some q)
    (hne : q ≠ .idle) : ∃ c, Engaged s i c ∧ Reaches hash s.sets.length c j := by
  have hlen := (hI.sets j x hx).2.2.2
  have hi : i < s.threads.length := by rw [← hlen]; exact (List.getElem?_eq_some_iff.1 hq).1
  have hp : s.threads[i]? = some s.threads[i] := List.getElem?_eq_getElem hi
  have hloc := hI.loc i j _ x q hp hx hq
  have hg := hI.good i _ hp
  revert hp hloc hg
  generalize s.threads[i] = p
  intro hp hloc hg
  cases p with
  | idle => exact absurd hloc hne
  | dead c done => exact hloc.elim
  | held c j' =>
    rcases hloc with h | ⟨rfl, -⟩
    · exact absurd h hne
    · exact ⟨c, .inr ⟨_, hp⟩, hg⟩
  | run c done pr =>
    rcases hloc with h | ⟨m, y, v, -, hy, rfl, -⟩
    · exact absurd h hne
    · exact ⟨c, .inl (.inl ⟨_, _, hp⟩), hg.2 y (List.mem_of_getLast? hy)⟩
  | inSet c done j' d next =>
    by_cases hj : j' = j
    · subst hj
      exact ⟨c, .inl (.inr ⟨_, _, _, _, hp⟩), hg.1⟩
    · simp only [Local, if_neg hj] at hloc
      exact absurd hloc hne

section
variable {hash : K → Nat} {B : Block K V} {G : GetOps B} {I : B.State → Prop}
  {ec : B.State → List (K × V)} {Pre : List (K × V) → Prop} {PreF : (V → V) → Prop}

theorem mem_visible {e : AEv K V} : ∀ {l : List (QEv K V)}, e ∈ visible l → .vis e ∈ l
  | x :: l, h => by
    cases x with
    | vis e' =>
      rcases List.mem_cons.1 h with rfl | h
      · exact List.mem_cons_self
      · exact List.mem_cons_of_mem _ (mem_visible h)
    | _ => exact List.mem_cons_of_mem _ (mem_visible h)

/-- **C75**, proved part: a call (other than pop) panics or waits, as long as no call panicked before, only
if another thread is at the same time in a call, or holds a cell, of the same set, or one of the two
calls is a push. -/
theorem C75_partial (hB : Lawful B I ec Pre) (hG : GetLawful B G I ec PreF) (hid : PreF id)
    (hro : (Container.ofGet B G).ReadOnly)
    (hPre : ∀ l p, Pre l → Pre (l.filter p)) {s₀ : List B.State} (hne : s₀ ≠ []) (hI : ∀ x ∈ s₀, I x)
    (hw : WellPlaced hash ec s₀) {n : Nat} {l : List (QEv K V)}
    {s : QState K V (Container.ofGet B G).block.State}
    (h : QRun hash (.ofGet B G) (.new s₀ n) l s) (hc : ∀ i c, .vis (.called i c) ∈ l → Ok Pre c)
    (hp : ∀ i c done, .vis (.panicked i c done) ∉ l) {i : Nat} {c : SCall K V} (hnp : NotPop c)
    (hd : Disturbed hash (.ofGet B G) s i c) :
    ∃ i' c', i' ≠ i ∧ Engaged s i' c' ∧
      (IsPush c ∨ IsPush c' ∨ ∃ j, Uses hash s₀.length c j ∧ Uses hash s₀.length c' j) := by
  obtain ⟨q1, q2, q3⟩ := h.sim hro hne hp
  have hai := q3.ainv hB hG hid hPre (AssocProps.inv_iff.2 ⟨List.length_pos_of_ne_nil hne, hI, hw⟩)
    fun i c hm => hc i c (mem_visible hm)
  have hfin : ∀ i' c' j, i' ≠ i → Engaged s i' c' → Reaches hash s.sets.length c j →
      Reaches hash s.sets.length c' j → ∃ i' c', i' ≠ i ∧ Engaged s i' c' ∧
      (IsPush c ∨ IsPush c' ∨ ∃ j, Uses hash s₀.length c j ∧ Uses hash s₀.length c' j) := by
    intro i' c' j h1 h2 h3 h4
    rw [q2] at h3 h4
    refine ⟨i', c', h1, h2, ?_⟩
    rcases reaches_uses h3 with h5 | h5
    · exact .inl h5
    · rcases reaches_uses h4 with h6 | h6
      · exact .inr (.inl h6)
      · exact .inr (.inr ⟨j, h5, h6⟩)
  -- what the coarse model knows about the program of a thread
  have hprog : ∀ (i : Nat) (c : SCall K V) (done : List (Part K V)) (p : Prog K V),
      (coarse s).threads[i]? = some (Assoc.Pc.run c done p) →
      p.Sound hash s₀.length Pre ∧ (NotPop c → p.Safe s₀.length) := by
    intro i c done p ht
    obtain ⟨ts, g1, g2, -⟩ := hai.bal
    rw [← g1, List.getElem?_map, Option.map_eq_some_iff] at ht
    obtain ⟨t, g3, g4⟩ := ht
    have := g2 t (List.mem_of_getElem? g3)
    unfold Assoc.TOk at this
    rw [g4] at this
    exact ⟨this.1, this.2.2⟩
  obtain ⟨hin, hdis⟩ := hd
  rcases hin with ⟨done, p, ht⟩ | ⟨done, j, d, next, ht⟩
  · -- between two sets
    exfalso
    have hct := coarse_get s i
    rw [ht, Option.map_some] at hct
    obtain ⟨-, hsafe⟩ := hprog i c done p hct
    have hsafe := hsafe hnp
    cases p with
    | ret r => simp [qstep, ht] at hdis
    | panic => exact hsafe
    | step j d next =>
      have hj : j < s.sets.length := by rw [q2]; exact hsafe.1
      have hx : s.sets[j]? = some s.sets[j] := List.getElem?_eq_getElem hj
      have hi : i < s.sets[j].threads.length := by
        rw [(q1.sets j _ hx).2.2.2]; exact (List.getElem?_eq_some_iff.1 ht).1
      have hq : s.sets[j].threads[i]? = some s.sets[j].threads[i] := List.getElem?_eq_getElem hi
      have hloc := q1.loc i j _ _ _ ht hx hq
      have hidle : s.sets[j].threads[i] = .idle := by
        rcases hloc with h | ⟨_, _, _, _, _, _, h | h⟩
        · exact h
        · cases h
        · cases h
      rw [hidle] at hq
      have hs : Seq.sstep (.ofGet B G) s.sets[j] i (.call d) =
          some (s.sets[j].setPc i (.start d), .called i d) := by simp [Seq.sstep, hq]
      simp [qstep, ht, hx, hs] at hdis
  · -- in a set
    have hg := (q1.good i _ ht).1
    cases hx : s.sets[j]? with
    | none =>
      have hct := coarse_get s i
      rw [ht, Option.map_some] at hct
      have hlook : look s.sets j i = none := by simp [look, hx]
      simp only [flat, hlook] at hct
      have := (hprog _ _ _ _ hct).2 hnp
      have : j < s.sets.length := by rw [q2]; exact this.1
      rw [List.getElem?_eq_getElem this] at hx
      cases hx
    | some x =>
      obtain ⟨hinv, ho, hip, hlen⟩ := q1.sets j x hx
      have hi : i < x.threads.length := by rw [hlen]; exact (List.getElem?_eq_some_iff.1 ht).1
      obtain ⟨q, hq⟩ : ∃ q, x.threads[i]? = some q := ⟨_, List.getElem?_eq_getElem hi⟩
      have hloc := q1.loc i j _ _ _ ht hx hq
      simp only [Local, if_true] at hloc
      have other : ∀ i' q', i' ≠ i → x.threads[i']? = some q' → q' ≠ .idle →
          ∃ i' c', i' ≠ i ∧ Engaged s i' c' ∧
          (IsPush c ∨ IsPush c' ∨ ∃ j, Uses hash s₀.length c j ∧ Uses hash s₀.length c' j) := by
        intro i' q' h1 h2 h3
        obtain ⟨c', h4, h5⟩ := engaged_of_look q1 hx h2 h3
        exact hfin i' c' j h1 h4 hg h5
      cases hs : Seq.sstep (.ofGet B G) x i .go with
      | none =>
        -- waits for the outer lock
        have hlock : q = .start d ∧ (x.oWriter = true ∨ x.oReaders ≠ 0) := by
          rcases hloc with rfl | rfl | ⟨t, rfl⟩ | ⟨r, rfl⟩ | ⟨r, rfl⟩
          · refine ⟨rfl, ?_⟩
            simp only [Seq.sstep, hq, ho, Bool.false_eq_true, if_false] at hs
            split at hs <;> split at hs <;> cases hs
            · rename_i h; exact .inl h
            · rename_i h; exact h
          · simp only [Seq.sstep, hq, hip, Bool.false_eq_true, if_false] at hs
            split at hs <;> split at hs <;> cases hs
          · simp only [Seq.sstep, hq] at hs
            split at hs <;> cases hs
          · simp only [Seq.sstep, hq] at hs
            split at hs <;> cases hs
          · simp [Seq.sstep, hq] at hs
        obtain ⟨rfl, hlock⟩ := hlock
        have : 0 < (x.threads.map Seq.Pc.xo).sum ∨ 0 < (x.threads.map Seq.Pc.so).sum := by
          rcases hlock with h | h
          · left; rw [hinv.xo, h]; simp
          · right; rw [hinv.so]; omega
        have : ∃ (i' : Nat) (q' : Seq.Pc K V _), x.threads[i']? = some q' ∧ q'.hold ≠ none := by
          rcases this with h | h
          · obtain ⟨i', q', h1, h2⟩ := Seq.sum_pos _ _ h
            refine ⟨i', q', h1, fun h3 => ?_⟩
            simp [Seq.Pc.xo, h3] at h2
          · obtain ⟨i', q', h1, h2⟩ := Seq.sum_pos _ _ h
            refine ⟨i', q', h1, fun h3 => ?_⟩
            simp [Seq.Pc.so, h3] at h2
        obtain ⟨i', q', h1, h2⟩ := this
        refine other i' q' ?_ h1 ?_
        · rintro rfl
          rw [hq] at h1
          cases h1
          exact h2 rfl
        · rintro rfl
          exact h2 rfl
      | some z =>
        obtain ⟨x', ev⟩ := z
        obtain ⟨p1, p2, g1, -, -, hcase⟩ := go_cases ho hip hs
        rw [hq] at g1
        cases g1
        have hpan : ∃ d', ev = .panicked i d' ∧ (q = .locked d' ∨ ∃ t, q = .inside d' t) := by
          rcases hcase with h | ⟨-, h⟩
          · exact h
          · exfalso
            simp only [qstep, ht, hx, hs] at hdis
            rcases h with ⟨c', rfl, rfl, rfl, -⟩ | ⟨c', t, rfl, rfl, rfl, -⟩ | ⟨c', t, r, rfl, rfl, rfl⟩ |
              ⟨c', r, rfl, rfl, rfl, -⟩ | ⟨c', v, m, rfl, rfl, rfl, -⟩ | ⟨c', r, rfl, rfl, rfl, -⟩ <;>
              simp at hdis
        obtain ⟨d', rfl, hpc⟩ := hpan
        have hdd : d' = d := by
          rcases hpc with rfl | ⟨t, rfl⟩ <;> simpa using hloc
        subst hdd
        rcases Seq.step_panics hinv hs with g | g | g | ⟨i', q', g1, g2, g3⟩
        · rw [ho] at g; cases g
        · rw [hip] at g; cases g
        · exfalso
          have hct := coarse_get s i
          have hlook : look s.sets j i = some q := by simp [look, hx, hq]
          rw [ht, Option.map_some] at hct
          have hct' : (coarse s).threads[i]? = some (Assoc.Pc.run c done (.step j d' next)) := by
            rw [hct]
            rcases hpc with rfl | ⟨t, rfl⟩ <;> simp only [flat, hlook]
          have hsx : (coarse s).sets[j]? = some x.cont := by simp [coarse, hx]
          obtain ⟨r, x'', he, -⟩ := Assoc.exec_spec hB hG hid ((hprog _ _ _ _ hct').1.2.1)
            (hai.inv.2 j x.cont hsx).1
          have he' : (Container.ofGet B G).exec d' x.cont = .ok (r, x'') := he
          rw [g] at he'
          cases he'
        · refine other i' q' g1 g2 ?_
          rintro rfl
          exact g3

/-! ## C76 -/

/-- Full statement of C76: whatever the calls (other than pop) of the threads and their interleaving, no
call panics, and when no call is in progress the elements stored and those returned are those given. -/
def C76_full : Prop :=
  ∀ (K V : Type) (hash : K → Nat) (B : Block K V) (G : GetOps B) (I : B.State → Prop)
    (ec : B.State → List (K × V)) (PreF : (V → V) → Prop) (s₀ : List B.State) (n : Nat)
    (l : List (QEv K V)) (s : QState K V B.State),
    Lawful B I ec (fun _ => True) → GetLawful B G I ec PreF → PreF id → (Container.ofGet B G).ReadOnly →
    s₀ ≠ [] → (∀ x ∈ s₀, I x) → WellPlaced hash ec s₀ →
    QRun hash (.ofGet B G) (.new s₀ n) l s → (∀ i c, .vis (.called i c) ∈ l → NotPop c) →
    (∀ i c done, .vis (.panicked i c done) ∉ l) ∧
    ((∀ i c, ¬ InCall s i c) →
      (s.sets.flatMap (fun x => ec x.cont) ++ backIn (visible l)).Perm
        (s₀.flatMap ec ++ givenIn (visible l)))

/-- **C76**, proved part: as long as no call panics, the run is one in which every call on a set is one
step, taken while the call is in progress: everything C74 says applies. -/
theorem C76_refines_partial {C : Container K V} (hro : C.ReadOnly) {s₀ : List C.block.State} (hne : s₀ ≠ [])
    {n : Nat} {l : List (QEv K V)} {s : QState K V C.block.State} (h : QRun hash C (.new s₀ n) l s)
    (hp : ∀ i c done, .vis (.panicked i c done) ∉ l) :
    ∃ a, ARun hash C (.new s₀ n) (visible l) a ∧ a.sets = s.sets.map (·.cont) :=
  ⟨coarse s, (h.sim hro hne hp).2.2, rfl⟩

/-- **C76**, proved part: as long as no call panics, once no call is in progress the elements stored and
those returned are those given; in every state each element is in the set of its key and each set is
within its capacity. -/
theorem C76_partial (hB : Lawful B I ec Pre) (hG : GetLawful B G I ec PreF) (hid : PreF id)
    (hro : (Container.ofGet B G).ReadOnly)
    (hPre : ∀ l p, Pre l → Pre (l.filter p)) {s₀ : List B.State} (hne : s₀ ≠ []) (hI : ∀ x ∈ s₀, I x)
    (hw : WellPlaced hash ec s₀) {n : Nat} {l : List (QEv K V)}
    {s : QState K V (Container.ofGet B G).block.State}
    (h : QRun hash (.ofGet B G) (.new s₀ n) l s) (hc : ∀ i c, .vis (.called i c) ∈ l → Ok Pre c)
    (hp : ∀ i c done, .vis (.panicked i c done) ∉ l) :
    (∀ x ∈ s.sets, I x.cont ∧ B.size x.cont ≤ B.capacity x.cont) ∧
    WellPlaced hash ec (s.sets.map (·.cont)) ∧
    ((∀ i c, ¬ InCall s i c) →
      (s.sets.flatMap (fun x => ec x.cont) ++ backIn (visible l)).Perm
        (s₀.flatMap ec ++ givenIn (visible l))) := by
  obtain ⟨q1, q2, q3⟩ := h.sim hro hne hp
  have hc' : ∀ i c, .called i c ∈ visible l → Ok Pre c := fun i c hm => hc i c (mem_visible hm)
  obtain ⟨g1, g2, -⟩ := ConcAssocProps.C74_partial hB hG hid hPre hne hI hw q3 hc'
  refine ⟨fun x hx => g1 x.cont (List.mem_map_of_mem (f := (·.cont)) hx), g2, fun hrest => ?_⟩
  have := ConcAssocProps.C74_conserves_partial hB hG hid hPre hne hI hw q3 hc' (by
    intro p hpm
    obtain ⟨i, hi⟩ := List.mem_iff_getElem?.1 hpm
    rw [coarse_get, Option.map_eq_some_iff] at hi
    obtain ⟨p', h1, rfl⟩ := hi
    have h0 : 0 < s.sets.length := by rw [q2]; exact List.length_pos_of_ne_nil hne
    have hx : s.sets[0]? = some s.sets[0] := List.getElem?_eq_getElem h0
    have hlen := (q1.sets 0 _ hx).2.2.2
    have hi : i < s.sets[0].threads.length := by rw [hlen]; exact (List.getElem?_eq_some_iff.1 h1).1
    have hloc := q1.loc i 0 p' _ _ h1 hx (List.getElem?_eq_getElem hi)
    cases p' with
    | idle => rfl
    | held c j => rfl
    | dead c done => exact hloc.elim
    | run c done p => exact absurd (.inl ⟨_, _, h1⟩) (hrest i c)
    | inSet c done j d next => exact absurd (.inr ⟨_, _, _, _, h1⟩) (hrest i c))
  have hmap : List.flatMap ec (coarse s).sets = s.sets.flatMap (fun x => ec x.cont) :=
    List.flatMap_map (f := fun x : SState K V B.State => x.cont) (g := ec) (l := s.sets)
  rw [← hmap]
  exact this

end

/-! ### Schedules -/

/-- Perform a schedule. -/
def play (hash : K → Nat) (C : Container K V) : QState K V C.block.State → List (Nat × SAct K V) →
    Option (List (QEv K V) × QState K V C.block.State)
  | s, [] => some ([], s)
  | s, (i, a) :: l => match qstep hash C s i a with
    | some (s', e) => (play hash C s' l).map fun x => (e :: x.1, x.2)
    | none => none

theorem play_run {hash : K → Nat} {C : Container K V} {s₀ : QState K V C.block.State} {as} :
    ∀ {s l l' s'}, QRun hash C s₀ l s → play hash C s as = some (l', s') → QRun hash C s₀ (l ++ l') s' := by
  induction as with
  | nil =>
    intro s l l' s' h hp
    simp only [play, Option.some.injEq, Prod.mk.injEq] at hp
    obtain ⟨rfl, rfl⟩ := hp
    simpa using h
  | cons x as ih =>
    intro s l l' s' h hp
    obtain ⟨i, a⟩ := x
    simp only [play] at hp
    split at hp
    · rename_i s1 e hs
      simp only [Option.map_eq_some_iff] at hp
      obtain ⟨⟨l2, s2⟩, h2, h3⟩ := hp
      simp only [Prod.mk.injEq] at h3
      obtain ⟨rfl, rfl⟩ := h3
      simpa using ih (h.snoc hs) h2
    · simp at hp

def two : QState Nat Nat arr.block.State := .new twoSets 2

/-- Thread 0 pushes an element of set 0, thread 1 an element of set 1; the second one finds the guard of
set 0 taken although it has nothing to put there. -/
def twoPushes : List (Nat × SAct Nat Nat) :=
  [(0, .call (.op (.push [(0, 7)]))), (0, .go), (0, .go), (0, .go), (0, .go), (0, .go),
   (1, .call (.op (.push [(1, 8)]))), (1, .go), (1, .go)]

def isPanic : QEv Nat Nat → Bool
  | .vis (.panicked _ _ _) => true
  | _ => false

/-- Where a thread is, in numbers: the key it pushes. -/
def pushes : Pc Nat Nat → Option Nat
  | .inSet (.op (.push [(k, _)])) _ _ _ _ => some k
  | _ => none

theorem of_pushes {p : Pc Nat Nat} {k : Nat} (h : pushes p = some k) :
    ∃ v done j d next, p = .inSet (.op (.push [(k, v)])) done j d next := by
  unfold pushes at h
  split at h
  · cases h; exact ⟨_, _, _, _, _, rfl⟩
  · cases h

theorem twoPushes_panics : ((play id arr two twoPushes).map fun x =>
      (x.1.any isPanic, x.2.threads.map pushes, (qstep id arr x.2 1 .go).map fun y => isPanic y.2)) =
    some (false, [some 0, some 1], some true) := by decide +kernel

theorem of_isPanic {hash : Nat → Nat} {s s' : QState Nat Nat arr.block.State} {i : Nat} {c : SCall Nat Nat} {e}
    (h : qstep hash arr s i .go = some (s', e)) (hin : InCall s i c) (he : isPanic e = true) :
    ∃ done, e = .vis (.panicked i c done) := by
  unfold isPanic at he
  split at he
  · rename_i i' c' done'
    rcases hin with ⟨done, p, ht⟩ | ⟨done, j, d, next, ht⟩
    · cases p with
      | ret r => simp only [qstep, ht] at h; cases h
      | panic => simp only [qstep, ht] at h; cases h; exact ⟨_, rfl⟩
      | step j d next =>
        simp only [qstep, ht] at h
        split at h
        · cases h; exact ⟨_, rfl⟩
        · split at h <;> cases h
    · simp only [qstep, ht] at h
      split at h
      · cases h
      · split at h <;> cases h
        exact ⟨_, rfl⟩
  · cases he

theorem not_panicked {l : List (QEv Nat Nat)} (h : l.any isPanic = false) :
    ∀ i c done, .vis (.panicked i c done) ∉ l := by
  intro i c done hm
  have := List.any_eq_false.1 h _ hm
  simp [isPanic] at this

/-- **C75 is false**: two threads push elements of different sets, and one of them panics. -/
theorem C75_false : ¬ C75_full := by
  intro h
  have hm := twoPushes_panics
  cases hp : play id arr two twoPushes with
  | none => rw [hp] at hm; cases hm
  | some x =>
    obtain ⟨l, s⟩ := x
    have hrun : QRun id arr two l s := by simpa using play_run .nil hp
    rw [hp] at hm
    simp only [Option.map_some, Option.some.injEq, Prod.mk.injEq] at hm
    obtain ⟨hm1, hm2, hm3⟩ := hm
    have get : ∀ (i : Nat) (k : Option Nat), ([some 0, some 1] : List (Option Nat))[i]? = some k →
        ∃ p, s.threads[i]? = some p ∧ pushes p = k := by
      intro i k hk
      rw [← hm2, List.getElem?_map, Option.map_eq_some_iff] at hk
      exact hk
    obtain ⟨p0, h0, k0⟩ := get 0 _ rfl
    obtain ⟨p1, h1, k1⟩ := get 1 _ rfl
    obtain ⟨v0, done0, j0, d0, next0, rfl⟩ := of_pushes k0
    obtain ⟨v1, done1, j1, d1, next1, rfl⟩ := of_pushes k1
    have hin : InCall s 1 (.op (.push [(1, v1)])) := .inr ⟨_, _, _, _, h1⟩
    have hdis : Disturbed id arr s 1 (.op (.push [(1, v1)])) := by
      refine ⟨hin, .inr ?_⟩
      cases hq : qstep id arr s 1 .go with
      | none => rw [hq] at hm3; cases hm3
      | some y =>
        obtain ⟨s', e⟩ := y
        rw [hq] at hm3
        simp only [Option.map_some, Option.some.injEq] at hm3
        obtain ⟨done, rfl⟩ := of_isPanic hq hin hm3
        exact ⟨s', done, rfl⟩
    obtain ⟨i', c', g1, g2, j, g3, g4⟩ := h Nat Nat id _ (arrayGet (fun _ => 1) natSorter natSorter) _ _ _
      twoSets 2 l s 1 (.op (.push [(1, v1)])) (Array.lawful (fun _ => 1) natSorter natSorter)
      (Array.getLawful (fun _ => 1) natSorter natSorter) (fun _ _ => rfl) SequentialProps.arr_readOnly
      (List.cons_ne_nil _ _) twoSets_inv twoSets_placed hrun (not_panicked hm1) trivial hdis
    have hlen : s.threads.length = 2 := by simpa using congrArg List.length hm2
    have hi' : i' = 0 := by
      have : i' < s.threads.length := by
        rcases g2 with (⟨_, _, g⟩ | ⟨_, _, _, _, g⟩) | ⟨_, g⟩ <;> exact (List.getElem?_eq_some_iff.1 g).1
      omega
    subst hi'
    have hc' : c' = .op (.push [(0, v0)]) := by
      rcases g2 with (⟨_, _, g⟩ | ⟨_, _, _, _, g⟩) | ⟨_, g⟩ <;> rw [h0] at g <;> cases g
      rfl
    subst hc'
    have e3 : ∃ e ∈ [(1, v1)], e.1 % 2 = j := g3
    have e4 : ∃ e ∈ [(0, v0)], e.1 % 2 = j := g4
    simp only [List.mem_singleton, exists_eq_left] at e3 e4
    omega

/-- Threads 1 and 2 take elements of set 0 at the same time: thread 2 panics and drops its clone.  Thread 0
then pushes an element of set 1. -/
def lossy : List (Nat × SAct Nat Nat) :=
  [(1, .call (.op (.take 0))), (1, .go), (2, .call (.op (.take 2))), (2, .go), (1, .go), (2, .go), (1, .go),
   (2, .go), (2, .unwind),
   (0, .call (.op (.push [(1, 8)]))), (0, .go), (0, .go), (0, .go), (0, .go), (0, .go),
   (1, .go), (1, .go), (1, .go), (1, .go)]

def three : QState Nat Nat arr.block.State := .new twoSets 3

/-- The calls made: the thread, what is taken, what is pushed. -/
def callOf : QEv Nat Nat → Option (Nat × Option Nat × List (Nat × Nat))
  | .vis (.called i (.op (.take k))) => some (i, some k, [])
  | .vis (.called i (.op (.push l))) => some (i, none, l)
  | .vis (.called i _) => some (i, none, [])
  | _ => none

/-- The elements of a set. -/
def vals (x : SState Nat Nat arr.block.State) : List (Nat × Nat) := Array.values x.cont

def isLoss : QEv Nat Nat → Bool
  | .vis (.returned 0 (.op (.push [(1, 8)])) _ (.obs (.many []))) => true
  | _ => false

theorem lossy_events : ((play id arr three lossy).map fun x =>
      (x.1.any isPanic, x.1.any isLoss, decide (x.1.filterMap callOf =
        [(1, some 0, []), (2, some 2, []), (0, none, [(1, 8)])]), decide (x.2.sets.map vals = [[], []]))) =
    some (true, true, true, true) := by decide +kernel

theorem of_callOf {l : List (QEv Nat Nat)} (hl : l.filterMap callOf =
      [(1, some 0, []), (2, some 2, []), (0, none, [(1, 8)])]) {i : Nat} {c : SCall Nat Nat}
    (h : .vis (.called i c) ∈ l) : NotPop c ∧ (i ≠ 0 → ∃ k, c = .op (.take k) ∧ k % 2 = 0) := by
  have key : ∀ z, callOf (.vis (.called i c)) = some z →
      z ∈ [(1, some 0, []), (2, some 2, []), (0, none, [(1, 8)])] := by
    intro z hz
    rw [← hl]
    exact List.mem_filterMap.2 ⟨_, h, hz⟩
  cases c with
  | op o =>
    cases o with
    | take k =>
      refine ⟨trivial, fun _ => ⟨k, rfl, ?_⟩⟩
      have := key _ rfl
      simp at this
      omega
    | push x =>
      refine ⟨trivial, fun hi => ?_⟩
      have := key _ rfl
      simp at this
      omega
    | _ =>
      have := key _ rfl
      simp at this
  | _ =>
    have := key _ rfl
    simp at this

theorem C76_false : ¬ C76_full := by
  intro h
  have hm := lossy_events
  cases hp : play id arr three lossy with
  | none => rw [hp] at hm; cases hm
  | some x =>
    obtain ⟨l, s⟩ := x
    have hrun : QRun id arr three l s := by simpa using play_run .nil hp
    rw [hp] at hm
    simp only [Option.map_some, Option.some.injEq, Prod.mk.injEq, decide_eq_true_eq] at hm
    obtain ⟨hm1, -, hm3, -⟩ := hm
    have := (h Nat Nat id _ (arrayGet (fun _ => 1) natSorter natSorter) _ _ _
      twoSets 3 l s (Array.lawful (fun _ => 1) natSorter natSorter)
      (Array.getLawful (fun _ => 1) natSorter natSorter) (fun _ _ => rfl) SequentialProps.arr_readOnly
      (List.cons_ne_nil _ _) twoSets_inv twoSets_placed hrun (fun i c hc => (of_callOf hm3 hc).1)).1
    obtain ⟨e, he, hpe⟩ := List.any_eq_true.1 hm1
    unfold isPanic at hpe
    split at hpe
    · exact this _ _ _ he
    · cases hpe

/-- A thread pushes an element of set 1; the push returns nothing and the element is not stored: it is lost.
The other threads only took elements of set 0. -/
theorem C76_loses : ∃ l s, QRun id arr three l s ∧
    (∃ done, .vis (.returned 0 (.op (.push [(1, 8)])) done (.obs (.many []))) ∈ l) ∧
    (∀ x ∈ s.sets, vals x = []) ∧
    (∀ i c, .vis (.called i c) ∈ l → i ≠ 0 → ∃ k, c = .op (.take k) ∧ k % 2 = 0) := by
  have hm := lossy_events
  cases hp : play id arr three lossy with
  | none => rw [hp] at hm; cases hm
  | some x =>
    obtain ⟨l, s⟩ := x
    have hrun : QRun id arr three l s := by simpa using play_run .nil hp
    rw [hp] at hm
    simp only [Option.map_some, Option.some.injEq, Prod.mk.injEq, decide_eq_true_eq] at hm
    obtain ⟨-, hm2, hm3, hm4⟩ := hm
    refine ⟨l, s, hrun, ?_, ?_, fun i c hc => (of_callOf hm3 hc).2⟩
    · obtain ⟨e, he, hl⟩ := List.any_eq_true.1 hm2
      unfold isLoss at hl
      split at hl
      · exact ⟨_, he⟩
      · cases hl
    · intro x hx
      have : vals x ∈ s.sets.map vals := List.mem_map_of_mem hx
      rw [hm4] at this
      simpa using this

/-! ### The hypotheses are met -/

/-- Thread 0 holds a cell of set 0 and thread 1, which pushes an element of set 0, waits. -/
def waiting : List (Nat × SAct Nat Nat) :=
  [(0, .call (.op (.push [(0, 7)]))), (0, .go), (0, .go), (0, .go), (0, .go), (0, .go), (0, .go), (0, .go),
   (0, .go), (0, .go), (0, .go), (0, .go), (0, .go), (0, .go),
   (0, .call (.get 0)), (0, .go), (0, .go), (0, .go), (0, .go), (0, .go), (0, .go),
   (1, .call (.op (.push [(2, 8)]))), (1, .go)]

def heldSet : Pc Nat Nat → Option Nat
  | .held _ j => some j
  | _ => none

/-- `C75_partial` applies to a state with a cell held and another thread waiting. -/
theorem C75_witness : ∃ l s c, QRun id arr two l s ∧ (∀ i c done, .vis (.panicked i c done) ∉ l) ∧
    (∃ c', s.threads[0]? = some (.held c' 0)) ∧ NotPop c ∧ Disturbed id arr s 1 c := by
  have hm : ((play id arr two waiting).map fun x => (x.1.any isPanic, x.2.threads.map heldSet,
      x.2.threads.map pushes, (qstep id arr x.2 1 .go).isNone)) =
      some (false, [some 0, none], [none, some 2], true) := by decide +kernel
  cases hp : play id arr two waiting with
  | none => rw [hp] at hm; cases hm
  | some x =>
    obtain ⟨l, s⟩ := x
    have hrun : QRun id arr two l s := by simpa using play_run .nil hp
    rw [hp] at hm
    simp only [Option.map_some, Option.some.injEq, Prod.mk.injEq, Option.isNone_iff_eq_none] at hm
    obtain ⟨hm1, hm2, hm3, hm4⟩ := hm
    have g1 : (s.threads.map heldSet)[0]? = some (some 0) := by rw [hm2]; rfl
    have g2 : (s.threads.map pushes)[1]? = some (some 2) := by rw [hm3]; rfl
    rw [List.getElem?_map, Option.map_eq_some_iff] at g1 g2
    obtain ⟨p0, h0, k0⟩ := g1
    obtain ⟨p1, h1, k1⟩ := g2
    obtain ⟨v1, done1, j1, d1, next1, rfl⟩ := of_pushes k1
    refine ⟨l, s, .op (.push [(2, v1)]), hrun, not_panicked hm1, ?_, trivial, .inr ⟨_, _, _, _, h1⟩, .inl hm4⟩
    unfold heldSet at k0
    split at k0
    · cases k0; exact ⟨_, h0⟩
    · cases k0

/-- `C76_partial` applies: two threads with interleaved calls on a set, at rest at the end. -/
def interleaved : List (Nat × SAct Nat Nat) :=
  [(0, .call (.op (.push [(0, 7)]))), (0, .go), (0, .go), (1, .call (.op (.take 1))), (1, .go), (0, .go), (1, .go),
   (0, .go), (1, .go), (0, .go), (1, .go), (0, .go), (1, .go), (0, .go), (1, .go), (1, .go), (0, .go), (0, .go),
   (0, .go), (0, .go), (0, .go), (0, .go)]

theorem C76_witness : ∃ l s, QRun id arr two l s ∧ (∀ i c done, .vis (.panicked i c done) ∉ l) ∧
    (∀ i c, ¬ InCall s i c) ∧ s.sets.map vals = [[(0, 7)], []] := by
  have hm : ((play id arr two interleaved).map fun x => (x.1.any isPanic, x.2.threads.all fun
      | .idle => true
      | _ => false, x.2.sets.map vals)) =
      some (false, true, [[(0, 7)], []]) := by decide +kernel
  cases hp : play id arr two interleaved with
  | none => rw [hp] at hm; cases hm
  | some x =>
    obtain ⟨l, s⟩ := x
    have hrun : QRun id arr two l s := by simpa using play_run .nil hp
    rw [hp] at hm
    simp only [Option.map_some, Option.some.injEq, Prod.mk.injEq] at hm
    obtain ⟨hm1, hm2, hm3⟩ := hm
    refine ⟨l, s, hrun, not_panicked hm1, ?_, hm3⟩
    intro i c hin
    rcases hin with ⟨_, _, g⟩ | ⟨_, _, _, _, g⟩
    · have := List.all_eq_true.1 hm2 _ (List.mem_of_getElem? g); cases this
    · have := List.all_eq_true.1 hm2 _ (List.mem_of_getElem? g); cases this

end ConcAssocSeqProps
end Byoc
