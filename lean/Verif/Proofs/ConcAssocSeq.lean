import Verif.Model.ConcAssocSeq
import Verif.Proofs.ConcAssoc
import Verif.Proofs.Sequential

/-! Invariants of an `Associative` of `Sequential` containers shared by threads, and its relation to the
model in which a call on a set is one step. -/

namespace Byoc.AssocSeq

open Byoc.Seq (Container SCall SObs SState SEv SAct SInv sstep step_inv step_cont executedIn)
open Byoc.Assoc (Prog Part AEv AState ARun astep prog sumProg flushProg takeProg pushProg popProg popWith
  sizesProg keyProg)

variable {K V S : Type}

/-! ## Steps of a set -/

section
variable {C : Container K V}

theorem go_cases {x x' : SState K V C.block.State} {i : Nat} {ev : SEv K V} (ho : x.oPoison = false)
    (hi : x.iPoison = false) (h : sstep C x i .go = some (x', ev)) :
    ∃ p q, x.threads[i]? = some p ∧ x'.threads = x.threads.set i q ∧ x'.oPoison = false ∧
    ((∃ c, ev = .panicked i c ∧ (p = .locked c ∨ ∃ t, p = .inside c t)) ∨ x'.iPoison = false ∧
      ((∃ c, p = .start c ∧ q = .locked c ∧ ev = .silent i ∧ x'.cont = x.cont) ∨
       (∃ c t, p = .locked c ∧ q = .inside c t ∧ ev = .silent i ∧ x'.cont = x.cont) ∨
       (∃ c t r, p = .inside c t ∧ q = .leaving c r ∧ ev = .executed i c r) ∨
       (∃ c r, p = .leaving c r ∧ q = .closing c r ∧ ev = .silent i ∧ x'.cont = x.cont) ∨
       (∃ c v m, p = .leaving c (.cell (some v)) ∧ q = .cell m ∧ ev = .returned i c (.cell (some v)) ∧
          x'.cont = x.cont) ∨
       (∃ c r, p = .closing c r ∧ q = .idle ∧ ev = .returned i c r ∧ x'.cont = x.cont))) := by
  cases hp : x.threads[i]? with
  | none => simp [sstep, hp] at h
  | some p =>
    cases p with
    | idle => simp [sstep, hp] at h
    | cell m => simp [sstep, hp] at h
    | dead m => simp [sstep, hp] at h
    | start c =>
      simp only [sstep, hp, ho, Bool.false_eq_true, if_false] at h
      split at h <;> split at h <;> cases h
      all_goals
        exact ⟨_, _, rfl, by simp [SState.setPc], by simpa [SState.setPc] using ho, .inr
          ⟨by simpa [SState.setPc] using hi, .inl ⟨c, rfl, rfl, rfl, by simp [SState.setPc]⟩⟩⟩
    | locked c =>
      simp only [sstep, hp, hi, Bool.false_eq_true, if_false] at h
      split at h <;> split at h <;> cases h
      · exact ⟨_, _, rfl, rfl, ho, .inl ⟨c, rfl, .inl rfl⟩⟩
      · exact ⟨_, _, rfl, rfl, ho, .inr ⟨rfl, .inr (.inl ⟨c, _, rfl, rfl, rfl, rfl⟩)⟩⟩
      · exact ⟨_, _, rfl, rfl, ho, .inl ⟨c, rfl, .inl rfl⟩⟩
      · exact ⟨_, _, rfl, rfl, ho, .inr ⟨rfl, .inr (.inl ⟨c, _, rfl, rfl, rfl, rfl⟩)⟩⟩
    | inside c t =>
      simp only [sstep, hp] at h
      split at h <;> cases h
      · exact ⟨_, _, rfl, by simp [SState.setPc]; rfl, by simpa [SState.setPc] using ho,
          .inl ⟨c, rfl, .inr ⟨t, rfl⟩⟩⟩
      · exact ⟨_, _, rfl, rfl, ho, .inr ⟨hi, .inr (.inr (.inl ⟨c, t, _, rfl, rfl, rfl⟩))⟩⟩
    | leaving c r =>
      simp only [sstep, hp] at h
      split at h <;> cases h
      · exact ⟨_, _, rfl, by simp [SState.setPc]; rfl, by simpa [SState.setPc] using ho, .inr
          ⟨by simpa [SState.setPc] using hi,
            .inr (.inr (.inr (.inr (.inl ⟨_, _, _, rfl, rfl, rfl, by simp [SState.setPc]⟩))))⟩⟩
      · exact ⟨_, _, rfl, by simp [SState.setPc]; rfl, by simpa [SState.setPc] using ho, .inr
          ⟨by simpa [SState.setPc] using hi,
            .inr (.inr (.inr (.inr (.inl ⟨_, _, _, rfl, rfl, rfl, by simp [SState.setPc]⟩))))⟩⟩
      · exact ⟨_, _, rfl, by simp [SState.setPc], by simpa [SState.setPc] using ho, .inr
          ⟨by simpa [SState.setPc] using hi,
            .inr (.inr (.inr (.inl ⟨_, _, rfl, rfl, rfl, by simp [SState.setPc]⟩)))⟩⟩
    | closing c r =>
      simp only [sstep, hp] at h
      cases h
      exact ⟨_, _, rfl, by simp [SState.setPc], by simpa [SState.setPc] using ho, .inr
          ⟨by simpa [SState.setPc] using hi,
            .inr (.inr (.inr (.inr (.inr ⟨_, _, rfl, rfl, rfl, by simp [SState.setPc]⟩))))⟩⟩

theorem call_cases {x x' : SState K V C.block.State} {i : Nat} {d : SCall K V} {ev : SEv K V}
    (h : sstep C x i (.call d) = some (x', ev)) :
    x.threads[i]? = some .idle ∧ x' = x.setPc i (.start d) := by
  cases hp : x.threads[i]? with
  | none => simp [sstep, hp] at h
  | some p =>
    cases p with
    | idle =>
      simp only [sstep, hp] at h
      cases h
      exact ⟨rfl, rfl⟩
    | _ => simp [sstep, hp] at h

theorem drop_cases {x x' : SState K V C.block.State} {i : Nat} {ev : SEv K V}
    (h : sstep C x i .dropCell = some (x', ev)) :
    ∃ m, x.threads[i]? = some (.cell m) ∧ x' = (x.release (some m)).setPc i .idle := by
  cases hp : x.threads[i]? with
  | none => simp [sstep, hp] at h
  | some p =>
    cases p with
    | cell m =>
      simp only [sstep, hp] at h
      cases h
      exact ⟨m, rfl, rfl⟩
    | _ => simp [sstep, hp] at h

end

/-! ## What a call does on the sets -/

/-- The sets a call may call: that of its key, those of its keys, or all. -/
def Reaches (hash : K → Nat) (n : Nat) : SCall K V → Nat → Prop
  | .op (.contains k), j => hash k % n = j
  | .op (.take k), j => hash k % n = j
  | .get k, j => hash k % n = j
  | .getMut k, j => hash k % n = j
  | .op (.takeMultiple ks), j => ∃ k ∈ ks, hash k % n = j
  | _, _ => True

/-- Only sets in `P` are called, and a cell obtained is the last thing that is done. -/
def Within (P : Nat → Prop) : Prog K V → Prop
  | .ret _ => True
  | .panic => True
  | .step j _ next => P j ∧
    (∀ v, next (.cell (some v)) = .panic ∨ next (.cell (some v)) = .ret (.cell (some v))) ∧
    ∀ r, Within P (next r)

section
variable {P : Nat → Prop}

theorem sum_within (c : SCall K V) : ∀ (js : List Nat) (acc : Nat), (∀ j ∈ js, P j) →
    Within P (sumProg c js acc)
  | [], _, _ => trivial
  | j :: js, acc, h => by
    refine ⟨h j (by simp), fun v => .inl rfl, fun r => ?_⟩
    cases r with
    | num x => exact sum_within c js _ fun i hi => h i (by simp [hi])
    | _ => trivial

theorem flush_within : ∀ (js : List Nat) (out : List (K × V)), (∀ j ∈ js, P j) → Within P (flushProg js out)
  | [], _, _ => trivial
  | j :: js, out, h => by
    refine ⟨h j (by simp), fun v => .inl rfl, fun r => ?_⟩
    cases r with
    | obs o =>
      cases o with
      | many o => exact flush_within js _ fun i hi => h i (by simp [hi])
      | _ => trivial
    | _ => trivial

theorem take_within : ∀ (gs : List (List K)) (j : Nat) (out : List (K × V)) (ks : List K),
    (∀ i g, gs[i]? = some g → g ≠ [] → P (j + i)) → Within P (takeProg j gs out ks)
  | [], _, _, _, _ => trivial
  | g :: gs, j, out, ks, h => by
    have h' : ∀ i g, gs[i]? = some g → g ≠ [] → P (j + 1 + i) := by
      intro i g hi hg
      have := h (i + 1) g (by simpa using hi) hg
      rwa [show j + (i + 1) = j + 1 + i by omega] at this
    unfold takeProg
    split
    · exact take_within gs _ _ _ h'
    · rename_i hg
      refine ⟨h 0 g (by simp) hg, fun v => .inl rfl, fun r => ?_⟩
      cases r with
      | obs o =>
        cases o with
        | keyed o k => exact take_within gs _ _ _ h'
        | _ => trivial
      | _ => trivial

theorem push_within (h : ∀ j, P j) : ∀ (gs : List (List (K × V))) (j : Nat) (out : List (K × V)),
    Within P (pushProg j gs out)
  | [], _, _ => trivial
  | g :: gs, j, out => by
    refine ⟨h j, fun v => .inl rfl, fun r => ?_⟩
    cases r with
    | obs o =>
      cases o with
      | many o => exact push_within h gs _ _
      | _ => trivial
    | _ => trivial

theorem pop_within (h : ∀ j, P j) (t : Nat) : ∀ (bs : List (Nat × Nat)) (out : List (K × V)),
    Within P (popProg t bs out)
  | [], _ => trivial
  | (bs, bi) :: rest, out => by
    unfold popProg
    split
    · trivial
    · refine ⟨h _, fun v => .inl rfl, fun r => ?_⟩
      cases r with
      | obs o =>
        cases o with
        | many o => exact pop_within h t rest _
        | _ => trivial
      | _ => trivial

theorem popWith_within (h : ∀ j, P j) (m : Nat) (sizes : List Nat) :
    Within P (popWith m sizes : Prog K V) := by
  unfold popWith
  dsimp only
  split
  · trivial
  · split
    · exact flush_within _ _ fun j _ => h j
    · split
      · trivial
      · exact pop_within h _ _ _

theorem sizes_within (h : ∀ j, P j) {next : List Nat → Prog K V} (hn : ∀ l, Within P (next l)) :
    ∀ (js sizes : List Nat), Within P (sizesProg next js sizes)
  | [], sizes => hn sizes
  | j :: js, sizes => by
    refine ⟨h j, fun v => .inl rfl, fun r => ?_⟩
    cases r with
    | num x => exact sizes_within h hn js _
    | _ => trivial

theorem key_within {hash : K → Nat} {n : Nat} (hn : 0 < n) (k : K) (c : SCall K V) (h : P (hash k % n)) :
    Within P (keyProg hash n k c) := by
  unfold keyProg
  have : Associative.set hash n k = .ok (hash k % n) := by simp [Associative.set, Nat.ne_of_gt hn]
  rw [this]
  exact ⟨h, fun v => .inr rfl, fun r => trivial⟩

end

theorem prog_within {hash : K → Nat} {n : Nat} (hn : 0 < n) (c : SCall K V) :
    Within (Reaches hash n c) (prog hash n c) := by
  cases c with
  | capacity => exact sum_within _ _ _ fun _ _ => trivial
  | size => exact sum_within _ _ _ fun _ _ => trivial
  | get k => exact key_within hn k _ rfl
  | getMut k => exact key_within hn k _ rfl
  | op o =>
    cases o with
    | contains k => exact key_within hn k _ rfl
    | take k => exact key_within hn k _ rfl
    | flush => exact flush_within _ _ fun _ _ => trivial
    | pop m => exact sizes_within (fun _ => trivial) (popWith_within (fun _ => trivial) m) _ _
    | takeMultiple ks =>
      obtain ⟨G, h1, -, -, h4⟩ := Associative.distribute_replicate hash id n hn ks
      simp only [prog, h1]
      refine take_within _ _ _ _ fun i g hg hne => ?_
      have := h4 i g hg
      subst this
      obtain ⟨k, hk⟩ := List.exists_mem_of_ne_nil _ hne
      rw [List.mem_filter] at hk
      exact ⟨k, hk.1, by simpa using hk.2⟩
    | push l =>
      obtain ⟨G, h1, -⟩ := Associative.distribute_replicate hash Prod.fst n hn l
      simp only [prog, h1]
      exact push_within (fun _ => trivial) _ _ _

/-! ## Invariant -/

/-- A thread that is at `p`, seen from set `j`. -/
def Local (j : Nat) (q : Seq.Pc K V S) : Pc K V → Prop
  | .idle => q = .idle
  | .run _ done pr => q = .idle ∨ ∃ m x v, q = .cell m ∧ done.getLast? = some x ∧ x.set = j ∧
      (pr = .panic ∨ pr = .ret (.cell (some v)))
  | .inSet _ _ j' d _ => if j' = j then q = .start d ∨ q = .locked d ∨ (∃ t, q = .inside d t) ∨
      (∃ r, q = .leaving d r) ∨ ∃ r, q = .closing d r else q = .idle
  | .held _ j' => q = .idle ∨ j' = j ∧ ∃ m, q = .cell m
  | .dead _ _ => False

/-- What a thread has left to do. -/
def Good (hash : K → Nat) (n : Nat) : Pc K V → Prop
  | .idle => True
  | .run c done p => Within (Reaches hash n c) p ∧ ∀ x ∈ done, Reaches hash n c x.set
  | .inSet c done j _ next => Reaches hash n c j ∧
      (∀ v, next (.cell (some v)) = .panic ∨ next (.cell (some v)) = .ret (.cell (some v))) ∧
      (∀ r, Within (Reaches hash n c) (next r)) ∧ ∀ x ∈ done, Reaches hash n c x.set
  | .held c j => Reaches hash n c j
  | .dead _ _ => True

structure QInv (hash : K → Nat) (s : QState K V S) : Prop where
  sets : ∀ (j : Nat) (x : SState K V S), s.sets[j]? = some x → SInv x ∧ x.oPoison = false ∧ x.iPoison = false ∧
    x.threads.length = s.threads.length
  loc : ∀ (i j : Nat) (p : Pc K V) (x : SState K V S) (q : Seq.Pc K V S), s.threads[i]? = some p → s.sets[j]? = some x → x.threads[i]? = some q → Local j q p
  good : ∀ (i : Nat) (p : Pc K V), s.threads[i]? = some p → Good hash s.sets.length p

theorem new_qinv (hash : K → Nat) (s : List S) (n : Nat) : QInv hash (QState.new (K := K) (V := V) s n) where
  sets j x hx := by
    simp only [QState.new, List.getElem?_map, Option.map_eq_some_iff] at hx
    obtain ⟨y, -, rfl⟩ := hx
    exact ⟨Seq.new_inv y n, rfl, rfl, by simp [SState.new, QState.new]⟩
  loc i j p x q hp hx hq := by
    simp only [QState.new, List.getElem?_map, Option.map_eq_some_iff] at hx
    obtain ⟨y, -, rfl⟩ := hx
    simp only [QState.new, SState.new, List.getElem?_replicate] at hp hq
    split at hp
    · cases hp; rw [if_pos (by assumption)] at hq; cases hq; rfl
    · cases hp
  good i p hp := by
    simp only [QState.new, List.getElem?_replicate] at hp
    split at hp
    · cases hp; trivial
    · cases hp

/-- Thread `i` moves from `p` to `p'`, set `j` from `x` to `x'`. -/
theorem QInv.change {hash : K → Nat} {s : QState K V S} {i j : Nat} {p p' : Pc K V} {x x' : SState K V S}
    {q q' : Seq.Pc K V S} (h : QInv hash s) (hp : s.threads[i]? = some p) (hx : s.sets[j]? = some x)
    (hq : x.threads[i]? = some q) (ht : x'.threads = x.threads.set i q') (hi : SInv x')
    (ho : x'.oPoison = false) (hi' : x'.iPoison = false) (hl : Local j q' p')
    (hl' : ∀ j' (q : Seq.Pc K V S), j' ≠ j → Local j' q p → Local j' q p') (hg : Good hash s.sets.length p') :
    QInv hash ⟨s.sets.set j x', s.threads.set i p'⟩ where
  sets j' y hy := by
    rw [List.getElem?_set] at hy
    split at hy
    · split at hy
      · cases hy
        refine ⟨hi, ho, hi', ?_⟩
        rw [ht]
        simpa using (h.sets j x hx).2.2.2
      · cases hy
    · have := h.sets j' y hy
      simpa using this
  loc i1 j1 p1 x1 q1 hp1 hx1 hq1 := by
    have hi1 : i < s.threads.length := (List.getElem?_eq_some_iff.1 hp).1
    have hj1 : j < s.sets.length := (List.getElem?_eq_some_iff.1 hx).1
    rw [List.getElem?_set] at hp1 hx1
    by_cases hii : i = i1
    · subst hii
      simp only [if_true, hi1] at hp1
      cases hp1
      by_cases hjj : j = j1
      · subst hjj
        simp only [if_true, hj1] at hx1
        cases hx1
        rw [ht, List.getElem?_set_self (List.getElem?_eq_some_iff.1 hq).1] at hq1
        cases hq1
        exact hl
      · simp only [if_neg hjj] at hx1
        exact hl' j1 q1 (Ne.symm hjj) (h.loc i j1 p x1 q1 hp hx1 hq1)
    · simp only [if_neg hii] at hp1
      by_cases hjj : j = j1
      · subst hjj
        simp only [if_true, hj1] at hx1
        cases hx1
        rw [ht, List.getElem?_set_ne hii] at hq1
        exact h.loc i1 j p1 x q1 hp1 hx hq1
      · simp only [if_neg hjj] at hx1
        exact h.loc i1 j1 p1 x1 q1 hp1 hx1 hq1
  good i1 p1 hp1 := by
    rw [List.getElem?_set] at hp1
    simp only [List.length_set]
    split at hp1
    · split at hp1
      · cases hp1; exact hg
      · cases hp1
    · exact h.good i1 p1 hp1

/-- Thread `i` moves, no set does. -/
theorem QInv.move {hash : K → Nat} {s : QState K V S} {i : Nat} {p p' : Pc K V}
    (h : QInv hash s) (hp : s.threads[i]? = some p)
    (hl : ∀ j q, Local j q p → Local (S := S) j q p') (hg : Good hash s.sets.length p') :
    QInv hash ⟨s.sets, s.threads.set i p'⟩ where
  sets j y hy := by simpa using h.sets j y hy
  loc i1 j1 p1 x1 q1 hp1 hx1 hq1 := by
    rw [List.getElem?_set] at hp1
    split at hp1
    · rename_i hii
      subst hii
      split at hp1
      · cases hp1; exact hl _ _ (h.loc i j1 p x1 q1 hp hx1 hq1)
      · cases hp1
    · exact h.loc i1 j1 p1 x1 q1 hp1 hx1 hq1
  good i1 p1 hp1 := by
    rw [List.getElem?_set] at hp1
    split at hp1
    · split at hp1
      · cases hp1; exact hg
      · cases hp1
    · exact h.good i1 p1 hp1

/-! ## The same run, with calls on sets in one step -/

/-- Where thread `i` is in set `j`. -/
def look (sets : List (SState K V S)) (j i : Nat) : Option (Seq.Pc K V S) := sets[j]?.bind (·.threads[i]?)

/-- A call on a set happens when the container's method returns. -/
def flat (sets : List (SState K V S)) (i : Nat) : Pc K V → Assoc.Pc K V
  | .idle => .idle
  | .held _ _ => .idle
  | .dead c done => .dead c done
  | .run c done p => .run c done p
  | .inSet c done j d next => match look sets j i with
    | some (.leaving _ r) => .run c (done ++ [⟨j, d, r⟩]) (next r)
    | some (.closing _ r) => .run c (done ++ [⟨j, d, r⟩]) (next r)
    | _ => .run c done (.step j d next)

def coarse (s : QState K V S) : AState K V S :=
  ⟨s.sets.map (·.cont), s.threads.mapIdx fun i p => flat s.sets i p⟩

theorem coarse_get (s : QState K V S) (i : Nat) :
    (coarse s).threads[i]? = (s.threads[i]?).map (flat s.sets i) := by
  simp [coarse]

theorem coarse_new (s : List S) (n : Nat) : coarse (QState.new (K := K) (V := V) s n) = .new s n := by
  unfold coarse QState.new AState.new
  congr 1
  · simp [SState.new, Function.comp_def]
  · apply List.ext_getElem? 
    intro i
    simp only [List.getElem?_mapIdx, List.getElem?_replicate]
    split <;> rfl

theorem flat_congr {sets sets' : List (SState K V S)} {i : Nat} (h : ∀ j, look sets' j i = look sets j i)
    (p : Pc K V) : flat sets' i p = flat sets i p := by
  cases p <;> simp only [flat]
  rw [h]

theorem coarse_change {s : QState K V S} {i j : Nat} {p' : Pc K V} {x x' : SState K V S} {q'}
    (hx : s.sets[j]? = some x) (ht : x'.threads = x.threads.set i q') :
    coarse ⟨s.sets.set j x', s.threads.set i p'⟩ =
      ⟨(coarse s).sets.set j x'.cont, (coarse s).threads.set i (flat (s.sets.set j x') i p')⟩ := by
  unfold coarse
  congr 1
  · simp
  · apply List.ext_getElem?
    intro i1
    simp only [List.getElem?_mapIdx, List.getElem?_set, List.length_mapIdx]
    by_cases hi : i = i1
    · subst hi
      simp only [if_true]
      split <;> rfl
    · simp only [if_neg hi]
      congr 1
      funext p
      refine flat_congr (fun j1 => ?_) p
      unfold look
      rw [List.getElem?_set]
      split
      · rename_i hj
        subst hj
        rw [if_pos (List.getElem?_eq_some_iff.1 hx).1, hx]
        simp only [Option.bind_some]
        rw [ht, List.getElem?_set_ne hi]
      · rfl

theorem coarse_move (s : QState K V S) (i : Nat) (p' : Pc K V) :
    coarse ⟨s.sets, s.threads.set i p'⟩ =
      ⟨(coarse s).sets, (coarse s).threads.set i (flat s.sets i p')⟩ := by
  unfold coarse
  congr 1
  apply List.ext_getElem?
  intro i1
  simp only [List.getElem?_mapIdx, List.getElem?_set, List.length_mapIdx]
  by_cases hi : i = i1
  · subst hi
    simp only [if_true]
    split <;> rfl
  · simp only [if_neg hi]

theorem set_self {α : Type} {l : List α} {i : Nat} {a : α} (h : l[i]? = some a) : l.set i a = l := by
  apply List.ext_getElem?
  intro j
  rw [List.getElem?_set]
  split
  · rename_i hj
    subst hj
    rw [if_pos (List.getElem?_eq_some_iff.1 h).1, h]
  · rfl

theorem look_set {sets : List (SState K V S)} {j i : Nat} {x x' : SState K V S} {q q'} (hx : sets[j]? = some x)
    (hq : x.threads[i]? = some q) (ht : x'.threads = x.threads.set i q') :
    look (sets.set j x') j i = some q' := by
  unfold look
  rw [List.getElem?_set_self (List.getElem?_eq_some_iff.1 hx).1]
  simp only [Option.bind_some]
  rw [ht, List.getElem?_set_self (List.getElem?_eq_some_iff.1 hq).1]

/-- A step that the coarse model does not see. -/
theorem coarse_same {s : QState K V S} {i j : Nat} {p p' : Pc K V} {x x' : SState K V S} {q'}
    (hp : s.threads[i]? = some p)
    (hx : s.sets[j]? = some x) (ht : x'.threads = x.threads.set i q') (hc : x'.cont = x.cont)
    (hf : flat (s.sets.set j x') i p' = flat s.sets i p) :
    coarse ⟨s.sets.set j x', s.threads.set i p'⟩ = coarse s := by
  rw [coarse_change hx ht, hf, hc]
  show AState.mk _ _ = _
  congr 1
  · exact set_self (by simp [coarse, hx])
  · exact set_self (by rw [coarse_get, hp]; rfl)

/-- What the coarse model does. -/
def Sees (hash : K → Nat) (C : Container K V) (s s' : QState K V C.block.State) (i : Nat) : QEv K V → Prop
  | .vis e => ∃ a, astep hash C (coarse s) i a = some (coarse s', e)
  | _ => coarse s' = coarse s

theorem set_thread_self {s : QState K V S} {sets : List (SState K V S)} {i : Nat} {p : Pc K V}
    (hp : s.threads[i]? = some p) : (⟨sets, s.threads⟩ : QState K V S) = ⟨sets, s.threads.set i p⟩ := by
  rw [set_self hp]

theorem flat_after (sets : List (SState K V S)) (i : Nat) (c : SCall K V) (done : List (Part K V)) (r : SObs K V) :
    flat sets i (Pc.after c done r) = .idle := by
  have : Pc.after c done r = .idle ∨ ∃ j, Pc.after c done r = .held c j := by
    unfold Pc.after
    split
    · exact .inr ⟨_, rfl⟩
    · exact .inl rfl
  rcases this with h | ⟨j, h⟩ <;> rw [h] <;> rfl

theorem step_sim {hash : K → Nat} {C : Container K V} (hro : C.ReadOnly) {s s' : QState K V C.block.State}
    {i : Nat} {a : SAct K V} {e : QEv K V} (hn : 0 < s.sets.length) (hI : QInv hash s)
    (h : qstep hash C s i a = some (s', e)) (he : ∀ c done, e ≠ .vis (.panicked i c done)) :
    QInv hash s' ∧ s'.sets.length = s.sets.length ∧ Sees hash C s s' i e := by
  have hlen : (coarse s).sets.length = s.sets.length := by simp [coarse]
  cases hp : s.threads[i]? with
  | none => simp [qstep, hp] at h
  | some p =>
    have hcp := coarse_get s i
    rw [hp, Option.map_some] at hcp
    have hgood := hI.good i p hp
    cases p with
    | idle =>
      cases a with
      | call c =>
        simp only [qstep, hp] at h
        cases h
        refine ⟨hI.move hp (fun j q hq => .inl hq) ⟨prog_within hn c, by simp⟩, rfl, .call c, ?_⟩
        rw [coarse_move]
        simp only [astep, hcp, flat, hlen]
      | _ => simp [qstep, hp] at h
    | held c j =>
      cases a with
      | dropCell =>
        simp only [qstep, hp] at h
        cases hx : s.sets[j]? with
        | none => simp [hx] at h
        | some x =>
          simp only [hx] at h
          cases hs : sstep C x i .dropCell with
          | none => simp [hs] at h
          | some z =>
            obtain ⟨x', ev⟩ := z
            simp only [hs] at h
            cases h
            obtain ⟨h1, h2, h3, -⟩ := hI.sets j x hx
            have h4 := step_inv h1 hs
            obtain ⟨m, hq, rfl⟩ := drop_cases hs
            refine ⟨hI.change hp hx hq (q' := .idle) (by simp [SState.setPc]) h4 (by simpa [SState.setPc] using h2)
              (by simpa [SState.setPc] using h3) rfl ?_ trivial, by simp, ?_⟩
            · rintro j' q hj (rfl | ⟨rfl, -⟩)
              · rfl
              · exact absurd rfl hj
            · exact coarse_same hp hx (q' := .idle) (by simp [SState.setPc]) (by simp [SState.setPc]) rfl
      | _ => simp [qstep, hp] at h
    | dead c done =>
      have : ∃ x, s.sets[0]? = some x := ⟨_, List.getElem?_eq_getElem hn⟩
      obtain ⟨x, hx⟩ := this
      have hl := (hI.sets 0 x hx).2.2.2
      have hi := (List.getElem?_eq_some_iff.1 hp).1
      rw [← hl] at hi
      exact (hI.loc i 0 _ x _ hp hx (List.getElem?_eq_getElem hi)).elim
    | run c done pr =>
      cases a with
      | go =>
        cases pr with
        | ret r =>
          simp only [qstep, hp] at h
          cases h
          have hloc : ∀ j (q : Seq.Pc K V C.block.State), Local j q (.run c done (.ret r)) →
              Local j q (Pc.after c done r) := by
            rintro j q (rfl | ⟨m, x, v, rfl, hx, rfl, hr | hr⟩)
            · unfold Pc.after
              split
              · exact .inl rfl
              · rfl
            · cases hr
            · cases hr
              simp only [Pc.after, hx]
              exact .inr ⟨rfl, m, rfl⟩
          have hg : Good hash s.sets.length (Pc.after c done r) := by
            unfold Pc.after
            split
            · rename_i x hx
              exact hgood.2 x (List.mem_of_getLast? hx)
            · trivial
          refine ⟨hI.move hp hloc hg, rfl, .go, ?_⟩
          rw [coarse_move]
          rw [flat_after]
          simp only [astep, hcp, flat]
        | panic =>
          simp only [qstep, hp] at h
          cases h
          exact absurd rfl (he _ _)
        | step j d next =>
          simp only [qstep, hp] at h
          cases hx : s.sets[j]? with
          | none =>
            simp only [hx] at h
            cases h
            exact absurd rfl (he _ _)
          | some x =>
            simp only [hx] at h
            cases hs : sstep C x i (.call d) with
            | none => simp [hs] at h
            | some z =>
              obtain ⟨x', ev⟩ := z
              simp only [hs] at h
              cases h
              obtain ⟨h1, h2, h3, -⟩ := hI.sets j x hx
              have h4 := step_inv h1 hs
              obtain ⟨hq, rfl⟩ := call_cases hs
              obtain ⟨⟨g1, g2, g3⟩, g4⟩ := hgood
              refine ⟨hI.change hp hx hq (q' := .start d) rfl h4 h2 h3 ?_ ?_ ⟨g1, g2, g3, g4⟩, by simp, ?_⟩
              · simp [Local]
              · rintro j' q hj (rfl | ⟨m, y, v, rfl, hy, -, hr | hr⟩)
                · simp [Local, Ne.symm hj]
                · cases hr
                · cases hr
              · refine coarse_same hp hx (q' := .start d) rfl rfl ?_
                simp only [flat, look_set (x' := x.setPc i (.start d)) (q' := .start d) hx hq rfl]
      | _ => simp [qstep, hp] at h
    | inSet c done j d next =>
      cases a with
      | go =>
        simp only [qstep, hp] at h
        cases hx : s.sets[j]? with
        | none => simp [hx] at h
        | some x =>
          simp only [hx] at h
          cases hs : sstep C x i .go with
          | none => simp [hs] at h
          | some z =>
            obtain ⟨x', ev⟩ := z
            simp only [hs] at h
            obtain ⟨h1, h2, h3, -⟩ := hI.sets j x hx
            have h4 := step_inv h1 hs
            have hcont := step_cont h1 hro hs
            obtain ⟨q, q', hq, ht, ho, hcase⟩ := go_cases h2 h3 hs
            have hloc := hI.loc i j _ x q hp hx hq
            simp only [Local, if_true] at hloc
            have hlook : look s.sets j i = some q := by simp [look, hx, hq]
            have hlook' := look_set hx hq ht
            have hoth : ∀ (j' : Nat) (q : Seq.Pc K V C.block.State), j' ≠ j →
                Local j' q (.inSet c done j d next) → q = .idle := by
              intro j' q hj hl
              simpa [Local, Ne.symm hj] using hl
            have hoth' : ∀ (j' : Nat) (q : Seq.Pc K V C.block.State), j' ≠ j →
                Local j' q (.inSet c done j d next) → Local j' q (.inSet c done j d next) :=
              fun _ _ _ h => h
            obtain ⟨g1, g2, g3, g4⟩ := hgood
            rcases hcase with ⟨c', rfl, -⟩ | ⟨hip, ⟨c', rfl, rfl, rfl, hc⟩ | ⟨c', t, rfl, rfl, rfl, hc⟩ |
              ⟨c', t, r, rfl, rfl, rfl⟩ | ⟨c', r, rfl, rfl, rfl, hc⟩ | ⟨c', v, m, rfl, rfl, rfl, hc⟩ |
              ⟨c', r, rfl, rfl, rfl, hc⟩⟩
            · cases h
              exact absurd rfl (he _ _)
            · have hd : c' = d := by simpa using hloc
              subst hd
              cases h
              rw [set_thread_self hp]
              refine ⟨hI.change hp hx hq ht h4 ho hip (by simp [Local]) hoth' ⟨g1, g2, g3, g4⟩, by simp, ?_⟩
              refine coarse_same hp hx ht hc ?_
              simp only [flat, hlook, hlook']
            · have hd : c' = d := by simpa using hloc
              subst hd
              cases h
              rw [set_thread_self hp]
              refine ⟨hI.change hp hx hq ht h4 ho hip (by simp [Local]) hoth' ⟨g1, g2, g3, g4⟩, by simp, ?_⟩
              refine coarse_same hp hx ht hc ?_
              simp only [flat, hlook, hlook']
            · have hd : c' = d := by simpa using hloc
              subst hd
              cases h
              rw [set_thread_self hp]
              refine ⟨hI.change hp hx hq ht h4 ho hip (by simp [Local]) hoth' ⟨g1, g2, g3, g4⟩, by simp, .go, ?_⟩
              rcases hcont with ⟨h5, -⟩ | ⟨c'', r'', h5, h6⟩
              · simp [executedIn] at h5
              · simp only [executedIn, List.cons.injEq, Prod.mk.injEq, and_true] at h5
                obtain ⟨rfl, rfl⟩ := h5
                rw [coarse_change hx ht]
                have hsx : (coarse s).sets[j]? = some x.cont := by simp [coarse, hx]
                simp only [flat, hlook] at hcp
                simp only [astep, hcp]
                rw [Assoc.part_some hsx h6]
                simp only [flat, hlook']
            · have hd : c' = d := by simpa using hloc
              subst hd
              cases h
              rw [set_thread_self hp]
              refine ⟨hI.change hp hx hq ht h4 ho hip (by simp [Local]) hoth' ⟨g1, g2, g3, g4⟩, by simp, ?_⟩
              refine coarse_same hp hx ht hc ?_
              simp only [flat, hlook, hlook']
            · have hd : c' = d := by simpa using hloc
              subst hd
              cases h
              refine ⟨hI.change hp hx hq ht h4 ho hip ?_ (fun j' q hj hl => .inl (hoth j' q hj hl)) ⟨g3 _, ?_⟩,
                by simp, ?_⟩
              · rcases g2 v with h5 | h5
                · exact .inr ⟨m, _, v, rfl, List.getLast?_concat, rfl, .inl h5⟩
                · exact .inr ⟨m, _, v, rfl, List.getLast?_concat, rfl, .inr h5⟩
              · intro y hy
                rcases List.mem_append.1 hy with hy | hy
                · exact g4 y hy
                · rw [List.mem_singleton.1 hy]; exact g1
              · refine coarse_same hp hx ht hc ?_
                simp only [flat, hlook]
            · have hd : c' = d := by simpa using hloc
              subst hd
              cases h
              refine ⟨hI.change hp hx hq ht h4 ho hip (.inl rfl) (fun j' q hj hl => .inl (hoth j' q hj hl))
                ⟨g3 _, ?_⟩, by simp, ?_⟩
              · intro y hy
                rcases List.mem_append.1 hy with hy | hy
                · exact g4 y hy
                · rw [List.mem_singleton.1 hy]; exact g1
              · refine coarse_same hp hx ht hc ?_
                simp only [flat, hlook]
      | _ => simp [qstep, hp] at h

/-- The visible events. -/
def visible : List (QEv K V) → List (AEv K V)
  | [] => []
  | .vis e :: l => e :: visible l
  | _ :: l => visible l

theorem visible_append (l l' : List (QEv K V)) : visible (l ++ l') = visible l ++ visible l' := by
  induction l with
  | nil => rfl
  | cons e l ih => cases e <;> simp [visible, ih]

/-- As long as no call panicked: the invariant, and the run with calls on sets in one step. -/
theorem QRun.sim {hash : K → Nat} {C : Container K V} (hro : C.ReadOnly) {s₀ : List C.block.State} (hne : s₀ ≠ [])
    {n : Nat} {l : List (QEv K V)} {s : QState K V C.block.State} (h : QRun hash C (.new s₀ n) l s)
    (hp : ∀ i c done, .vis (.panicked i c done) ∉ l) :
    QInv hash s ∧ s.sets.length = s₀.length ∧ ARun hash C (.new s₀ n) (visible l) (coarse s) := by
  induction h with
  | nil => exact ⟨new_qinv hash s₀ n, by simp [QState.new], by rw [coarse_new]; exact .nil⟩
  | @snoc l s s' i a e hr hs ih =>
    obtain ⟨h1, h2, h3⟩ := ih fun i c done hm => hp i c done (by simp [hm])
    have hpos : 0 < s.sets.length := by rw [h2]; exact List.length_pos_of_ne_nil hne
    obtain ⟨g1, g2, g3⟩ := step_sim hro hpos h1 hs fun c done he => hp i c done (by simp [he])
    refine ⟨g1, g2.trans h2, ?_⟩
    rw [visible_append]
    cases e with
    | vis e =>
      obtain ⟨a', g4⟩ := g3
      exact .snoc h3 g4
    | _ =>
      have g4 : coarse s' = coarse s := g3
      rw [g4]
      simpa [visible] using h3

end Byoc.AssocSeq
