import Verif.Proofs.ConcAssoc
import Verif.Props.SequentialProps
import Verif.Props.AssocProps

/-!
# C74: an associative container shared by threads
-/

namespace Byoc
namespace ConcAssocProps

open Byoc.Assoc
open Byoc.Seq (Container SCall SObs)
open AssocProps (WellPlaced)
open SequentialProps (arr)
open ArrayProps (natSorter)

variable {K V : Type}

/-- The container when nobody else uses it (Model/Combinators.lean). -/
def whole (hash : K → Nat) (B : Block K V) (G : GetOps B) : Container K V :=
  .ofGet (associative hash B) (associativeGet hash G)

/-- Every call that returned gave the result it gives when it is performed in one go at some moment
between its call and its return. -/
def Atomic (hash : K → Nat) (B : Block K V) (G : GetOps B) (s₀ : List B.State) (n : Nat)
    (l : List (AEv K V)) : Prop :=
  ∀ l1 l2 i c done r, l = l1 ++ .returned i c done r :: l2 →
    ∃ a b d s t, l1 = a ++ .called i c :: b ++ d ∧ (∀ e ∈ b ++ d, e.bound ≠ some i) ∧
      ARun hash (.ofGet B G) (.new s₀ n) (a ++ .called i c :: b) s ∧
      (whole hash B G).exec c s.sets = .ok (r, t)

/-- Full statement of C74: however the threads interleave, every call returns what it returns when it is
performed in one go at some moment of the call. -/
def C74_full : Prop :=
  ∀ (K V : Type) (hash : K → Nat) (B : Block K V) (G : GetOps B) (I : B.State → Prop)
    (ec : B.State → List (K × V)) (PreF : (V → V) → Prop) (s₀ : List B.State) (n : Nat)
    (l : List (AEv K V)) (s : AState K V B.State),
    Lawful B I ec (fun _ => True) → GetLawful B G I ec PreF → PreF id →
    s₀ ≠ [] → (∀ x ∈ s₀, I x) → WellPlaced hash ec s₀ →
    ARun hash (.ofGet B G) (.new s₀ n) l s → Atomic hash B G s₀ n l

section
variable {hash : K → Nat} {B : Block K V} {G : GetOps B} {I : B.State → Prop}
  {ec : B.State → List (K × V)} {Pre : List (K × V) → Prop} {PreF : (V → V) → Prop}

/-- **C74**, proved part: however the threads interleave, panics included, over sets that obey the
contract: every element is in the set of its key, the number of sets and their capacities do not change, a
set and the whole never exceed their capacity, no element is stored or returned more often than it was
given, and only `pop` panics. -/
theorem C74_partial (hB : Lawful B I ec Pre) (hG : GetLawful B G I ec PreF) (hid : PreF id)
    (hPre : ∀ l p, Pre l → Pre (l.filter p)) {s₀ : List B.State} (hne : s₀ ≠ []) (hI : ∀ x ∈ s₀, I x)
    (hw : WellPlaced hash ec s₀) {n : Nat} {l : List (AEv K V)}
    {s : AState K V (Container.ofGet B G).block.State}
    (h : ARun hash (.ofGet B G) (.new s₀ n) l s) (hc : ∀ i c, .called i c ∈ l → Ok Pre c) :
    (∀ x ∈ s.sets, I x ∧ B.size x ≤ B.capacity x) ∧ WellPlaced hash ec s.sets ∧
    s.sets.map B.capacity = s₀.map B.capacity ∧
    (associative hash B).size s.sets ≤ (associative hash B).capacity s₀ ∧
    (s.sets.flatMap ec ++ backIn l).Subperm (s₀.flatMap ec ++ givenIn l) ∧
    (∀ i c done, .panicked i c done ∈ l → ∃ m, c = .op (.pop m)) := by
  have hi := h.ainv hB hG hid hPre (AssocProps.inv_iff.2 ⟨List.length_pos_of_ne_nil hne, hI, hw⟩) hc
  obtain ⟨h1, h2, h3⟩ := AssocProps.inv_iff.1 hi.inv
  refine ⟨fun x hx => ⟨h2 x hx, hB.bounded x (h2 x hx)⟩, h3, hi.caps, ?_, ?_, ?_⟩
  · have hle : ∀ xs : List B.State, (∀ x ∈ xs, I x) → (xs.map B.size).sum ≤ (xs.map B.capacity).sum := by
      intro xs
      induction xs with
      | nil => simp
      | cons x xs ih =>
        intro hxs
        have := ih fun y hy => hxs y (by simp [hy])
        have := hB.bounded x (hxs x (by simp))
        simp; omega
    have := hle s.sets h2
    rw [hi.caps] at this
    exact this
  · obtain ⟨ts, -, -, hb⟩ := hi.bal
    refine List.Subperm.trans ?_ hb.subperm
    rw [← List.append_assoc]
    exact (List.sublist_append_left _ _).subperm
  · intro i c done hm
    have := hi.pops i c done hm
    cases c with
    | op o =>
      cases o with
      | pop m => exact ⟨m, rfl⟩
      | _ => exact absurd trivial this
    | _ => exact absurd trivial this

/-- **C74**, proved part: when no call is in progress and no thread panicked, nothing was lost: the
elements stored at the beginning and given by the calls are the elements stored and returned. -/
theorem C74_conserves_partial (hB : Lawful B I ec Pre) (hG : GetLawful B G I ec PreF) (hid : PreF id)
    (hPre : ∀ l p, Pre l → Pre (l.filter p)) {s₀ : List B.State} (hne : s₀ ≠ []) (hI : ∀ x ∈ s₀, I x)
    (hw : WellPlaced hash ec s₀) {n : Nat} {l : List (AEv K V)}
    {s : AState K V (Container.ofGet B G).block.State}
    (h : ARun hash (.ofGet B G) (.new s₀ n) l s) (hc : ∀ i c, .called i c ∈ l → Ok Pre c)
    (hrest : ∀ p ∈ s.threads, p = .idle) :
    (s.sets.flatMap ec ++ backIn l).Perm (s₀.flatMap ec ++ givenIn l) := by
  have hi := h.ainv hB hG hid hPre (AssocProps.inv_iff.2 ⟨List.length_pos_of_ne_nil hne, hI, hw⟩) hc
  obtain ⟨ts, h1, h2, hb⟩ := hi.bal
  have : ts.flatMap hand = [] := by
    refine List.flatMap_eq_nil_iff.2 fun t ht => ?_
    have h3 := hrest t.1 (h1 ▸ List.mem_map_of_mem ht)
    have h4 := h2 t ht
    obtain ⟨p, g⟩ := t
    subst h3
    exact h4
  rw [this, List.append_nil] at hb
  exact hb

/-- The key of a call about one key. -/
def keyOf : SCall K V → Option K
  | .op (.contains k) => some k
  | .op (.take k) => some k
  | .get k => some k
  | .getMut k => some k
  | _ => none

theorem prog_key {c : SCall K V} {k : K} (hk : keyOf c = some k) (n : Nat) :
    prog hash n c = keyProg hash n k c := by
  cases c with
  | op o => cases o <;> simp only [keyOf, reduceCtorEq, Option.some.injEq] at hk <;> subst hk <;> rfl
  | get k' => simp only [keyOf, Option.some.injEq] at hk; subst hk; rfl
  | getMut k' => simp only [keyOf, Option.some.injEq] at hk; subst hk; rfl
  | _ => cases hk

/-- **C74**, proved part: a call about one key (`contains`, `take`, `get`, `get_mut`) is atomic: at one
moment between its call and its return, the whole container performs it, in one step, with its result. -/
theorem C74_key_partial {s₀ : List B.State} {n : Nat} {l1 l2 : List (AEv K V)}
    {s : AState K V (Container.ofGet B G).block.State} {i : Nat} {c : SCall K V} {k : K} {done r}
    (h : ARun hash (.ofGet B G) (.new s₀ n) (l1 ++ .returned i c done r :: l2) s)
    (hk : keyOf c = some k) :
    ∃ a b d x s1 s2, l1 = a ++ .called i c :: b ++ .part i x :: d ∧
      (∀ e ∈ b ++ d, e.bound ≠ some i) ∧ partsOf i (b ++ d) = [] ∧
      ARun hash (.ofGet B G) (.new s₀ n) (a ++ .called i c :: b) s1 ∧
      ARun hash (.ofGet B G) (.new s₀ n) (a ++ .called i c :: b ++ [.part i x]) s2 ∧
      (whole hash B G).exec c s1.sets = .ok (r, s2.sets) := by
  obtain ⟨a, bd, h1, h2, h3, h4⟩ := h.returned
  have hlen0 : ∀ {l s'}, ARun hash (.ofGet B G) (.new s₀ n) l s' → s'.sets.length = s₀.length :=
    fun h => h.length
  rw [prog_key hk, keyProg] at h4
  cases hset : Associative.set hash (List.length (α := B.State) s₀) k with
  | panic =>
    rw [show Associative.set hash (List.length (α := (Container.ofGet B G).block.State) s₀) k = _ from hset] at h4
    cases done with
    | nil => cases follows_nil.1 h4
    | cons x xs => exact h4.elim
  | ok j =>
    rw [show Associative.set hash (List.length (α := (Container.ofGet B G).block.State) s₀) k = _ from hset] at h4
    cases done with
    | nil => cases follows_nil.1 h4
    | cons x xs =>
      obtain ⟨hj, hd, h5⟩ := h4
      cases xs with
      | cons y ys => exact h5.elim
      | nil =>
        have hr := follows_nil.1 h5
        simp only [Prog.ret.injEq] at hr
        -- the event
        have hsplit : ∀ (m : List (AEv K V)) (y : Part K V), partsOf i m = [y] →
            ∃ b d, m = b ++ .part i y :: d ∧ partsOf i (b ++ d) = [] := by
          intro m
          induction m with
          | nil => intro y hy; cases hy
          | cons e m ih =>
            intro y hy
            cases e with
            | part i' z =>
              simp only [partsOf] at hy
              split at hy
              · rename_i hi
                subst hi
                simp only [List.cons.injEq] at hy
                obtain ⟨rfl, hm⟩ := hy
                exact ⟨[], m, rfl, by simpa using hm⟩
              · rename_i hi
                obtain ⟨b, d, g1, g2⟩ := ih y hy
                exact ⟨.part i' z :: b, d, by rw [g1]; rfl, by simpa [partsOf, hi] using g2⟩
            | called i' c' =>
              obtain ⟨b, d, g1, g2⟩ := ih y hy
              exact ⟨.called i' c' :: b, d, by rw [g1]; rfl, g2⟩
            | returned i' c' d' r' =>
              obtain ⟨b, d, g1, g2⟩ := ih y hy
              exact ⟨.returned i' c' d' r' :: b, d, by rw [g1]; rfl, g2⟩
            | panicked i' c' d' =>
              obtain ⟨b, d, g1, g2⟩ := ih y hy
              exact ⟨.panicked i' c' d' :: b, d, by rw [g1]; rfl, g2⟩
        obtain ⟨b, d, g1, g2⟩ := hsplit bd x h3
        subst g1
        have hl : l1 ++ .returned i c [x] r :: l2 =
            ((a ++ .called i c :: b) ++ [.part i x]) ++ (d ++ .returned i c [x] r :: l2) := by simp [h1]
        rw [hl] at h
        obtain ⟨s2, k1, -⟩ := h.split
        obtain ⟨s1, i', act, k2, k3⟩ := k1.last
        refine ⟨a, b, d, x, s1, s2, by simp [h1], fun e he => h2 e ?_, g2, k2, k1, ?_⟩
        · rcases List.mem_append.1 he with he | he
          · exact List.mem_append_left _ he
          · exact List.mem_append_right _ (List.mem_cons_of_mem _ he)
        · have key : (prog hash s1.sets.length c).alone (.ofGet B G) s1.sets = .ok (r, s2.sets) := by
            rw [prog_key hk, keyProg, show s1.sets.length = List.length (α := B.State) s₀ from hlen0 k2, hset]
            rcases astep_cases k3 with ⟨c', -, he, -⟩ | ⟨c', done', r', h0, he, -⟩ | ⟨c', done', p, -, he, -⟩ |
              ⟨c', done', j', d', next, y, r', y', -, hy, hex, he, rfl⟩
            · cases he
            · cases he
            · cases he
            · cases he
              dsimp only at hj hd hr
              subst hj hd hr
              exact alone_ok hy hex rfl
          exact (alone_eq hash s1.sets c).symm.trans key

/-- **C74**, proved part: a call during which no other thread's call reaches a set is the call of a
container that is not shared: same result, same sets afterwards. -/
theorem C74_serial_partial {s₀ : List B.State} {n : Nat} {a b l2 : List (AEv K V)}
    {s : AState K V (Container.ofGet B G).block.State} {i : Nat} {c : SCall K V} {done r}
    (h : ARun hash (.ofGet B G) (.new s₀ n) (a ++ .called i c :: b ++ .returned i c done r :: l2) s)
    (hb : ∀ e ∈ b, e.bound ≠ some i) (ho : ∀ i' x, .part i' x ∈ b → i' = i) :
    ∃ s1 s2, ARun hash (.ofGet B G) (.new s₀ n) a s1 ∧
      ARun hash (.ofGet B G) (.new s₀ n) (a ++ .called i c :: b ++ [.returned i c done r]) s2 ∧
      (whole hash B G).exec c s1.sets = .ok (r, s2.sets) := by
  have hl : a ++ .called i c :: b ++ .returned i c done r :: l2 =
      (a ++ .called i c :: b ++ [.returned i c done r]) ++ l2 := by simp
  rw [hl] at h
  obtain ⟨s2, h1, -⟩ := h.split
  have h1' := h1
  have hl2 : a ++ .called i c :: b ++ [.returned i c done r] =
      (a ++ [.called i c]) ++ (b ++ [.returned i c done r]) := by simp
  rw [hl2] at h1
  obtain ⟨s1c, h2, h3⟩ := h1.split
  obtain ⟨s1, i1, act1, h4, h5⟩ := h2.last
  obtain ⟨s2b, i2, act2, h6, h7⟩ := h3.last
  refine ⟨s1, s2, h4, h1', ?_⟩
  refine (alone_eq hash s1.sets c).symm.trans ?_
  rcases astep_cases h5 with ⟨c', g0, he, rfl⟩ | ⟨c', done', r', g0, he, -⟩ | ⟨c', done', p, -, he, -⟩ |
    ⟨c', done', j', d', next, y, r', y', -, hy, hex, he, -⟩
  · cases he
    obtain ⟨done', p', g1, g2⟩ := h6.track (i := i)
      (by rw [List.getElem?_set_self (List.getElem?_eq_some_iff.1 g0).1]) hb ho
    refine g2.symm.trans ?_
    rcases astep_cases h7 with ⟨c', k0, he, -⟩ | ⟨c', done', r', k0, he, rfl⟩ | ⟨c', done', p, -, he, -⟩ |
      ⟨c', done', j', d', next, y, r', y', -, hy, hex, he, -⟩
    · cases he
    · cases he
      rw [g1] at k0
      cases k0
      rfl
    · cases he
    · cases he
  · cases he
  · cases he
  · cases he

theorem sumProg_follows {c : SCall K V} : ∀ {js : List Nat} {acc : Nat} {done : List (Part K V)} {r},
    Follows (sumProg c js acc) done (.ret r) →
    ∃ vs : List Nat, r = .num (acc + vs.sum) ∧ vs.length = js.length ∧
      (∀ p ∈ js.zip vs, ⟨p.1, c, .num p.2⟩ ∈ done)
  | [], acc, done, r, h => by
    cases done with
    | nil =>
      have := follows_nil.1 h
      simp only [sumProg, Prog.ret.injEq] at this
      exact ⟨[], by simp [← this], rfl, by simp⟩
    | cons x xs => exact h.elim
  | j :: js, acc, done, r, h => by
    cases done with
    | nil => cases follows_nil.1 h
    | cons x xs =>
      obtain ⟨h1, h2, h3⟩ := h
      obtain ⟨xj, xc, xr⟩ := x
      dsimp only at h1 h2 h3
      subst h1 h2
      cases xr with
      | num v =>
        obtain ⟨vs, g1, g2, g3⟩ := sumProg_follows h3
        refine ⟨v :: vs, by rw [g1]; simp [Nat.add_assoc], by simp [g2], ?_⟩
        intro p hp
        simp only [List.zip_cons_cons, List.mem_cons] at hp
        rcases hp with rfl | hp
        · simp
        · exact List.mem_cons_of_mem _ (g3 p hp)
      | _ =>
        cases xs with
        | nil => cases follows_nil.1 h3
        | cons y ys => exact h3.elim

theorem mem_partsOf {i : Nat} {x : Part K V} : ∀ {l : List (AEv K V)}, x ∈ partsOf i l → .part i x ∈ l
  | e :: l, h => by
    cases e with
    | part i' y =>
      simp only [partsOf] at h
      split at h
      · rename_i hi
        subst hi
        rcases List.mem_cons.1 h with rfl | h
        · simp
        · exact List.mem_cons_of_mem _ (mem_partsOf h)
      · exact List.mem_cons_of_mem _ (mem_partsOf h)
    | _ => exact List.mem_cons_of_mem _ (mem_partsOf h)

/-- **C74**, proved part: however the threads interleave, `capacity()` is the total capacity of the sets,
and `size()` is at most that. -/
theorem C74_capacity_partial (hB : Lawful B I ec Pre) (hG : GetLawful B G I ec PreF) (hid : PreF id)
    (hPre : ∀ l p, Pre l → Pre (l.filter p)) {s₀ : List B.State} (hne : s₀ ≠ []) (hI : ∀ x ∈ s₀, I x)
    (hw : WellPlaced hash ec s₀) {n : Nat} {l : List (AEv K V)}
    {s : AState K V (Container.ofGet B G).block.State}
    (h : ARun hash (.ofGet B G) (.new s₀ n) l s) (hc : ∀ i c, .called i c ∈ l → Ok Pre c) :
    (∀ i done r, .returned i .capacity done r ∈ l → r = .num ((associative hash B).capacity s₀)) ∧
    (∀ i done r, .returned i .size done r ∈ l → ∃ v ≤ (associative hash B).capacity s₀, r = .num v) := by
  -- what a set answered
  have parts : ∀ i j v, (.part i ⟨j, .capacity, .num v⟩ ∈ l → (s₀.map B.capacity)[j]? = some v) ∧
      (.part i ⟨j, .size, .num v⟩ ∈ l → ∃ w ≥ v, (s₀.map B.capacity)[j]? = some w) := by
    intro i j v
    have key : ∀ (c : SCall K V), .part i ⟨j, c, .num v⟩ ∈ l →
        ∃ x : B.State, I x ∧ (s₀.map B.capacity)[j]? = some (B.capacity x) ∧
          ∃ x', (Container.ofGet B G).exec c x = .ok (.num v, x') := by
      intro c hm
      obtain ⟨l1, l2, rfl⟩ := List.append_of_mem hm
      have hl : l1 ++ .part i ⟨j, c, .num v⟩ :: l2 = (l1 ++ [.part i ⟨j, c, .num v⟩]) ++ l2 := by simp
      rw [hl] at h
      obtain ⟨s2, h1, -⟩ := h.split
      obtain ⟨s1, i', act, h2, h3⟩ := h1.last
      have hi := h2.ainv hB hG hid hPre (AssocProps.inv_iff.2 ⟨List.length_pos_of_ne_nil hne, hI, hw⟩)
        fun i c hm => hc i c (by simp [hm])
      rcases astep_cases h3 with ⟨c', -, he, -⟩ | ⟨c', done', r', h0, he, -⟩ | ⟨c', done', p, -, he, -⟩ |
        ⟨c', done', j', d', next, y, r', y', -, hy, hex, he, rfl⟩
      · cases he
      · cases he
      · cases he
      · cases he
        refine ⟨y, (hi.inv.2 j y hy).1, ?_, y', hex⟩
        rw [← hi.caps, List.getElem?_map]
        exact congrArg (Option.map B.capacity) hy
    constructor
    · intro hm
      obtain ⟨x, -, h2, x', h3⟩ := key _ hm
      simp only [Container.exec, Res.ok.injEq] at h3
      cases congrArg Prod.fst h3
      exact h2
    · intro hm
      obtain ⟨x, h1, h2, x', h3⟩ := key _ hm
      simp only [Container.exec, Res.ok.injEq] at h3
      cases congrArg Prod.fst h3
      exact ⟨_, hB.bounded x h1, h2⟩
  -- sums
  have sums : ∀ (caps vs : List Nat), vs.length = caps.length → ∀ m,
      ((∀ p ∈ (List.range' m caps.length).zip vs, caps[p.1 - m]? = some p.2) → vs = caps) ∧
      ((∀ p ∈ (List.range' m caps.length).zip vs, ∃ w ≥ p.2, caps[p.1 - m]? = some w) → vs.sum ≤ caps.sum) := by
    intro caps
    induction caps with
    | nil => intro vs hv m; cases vs <;> simp at hv; simp
    | cons w caps ih =>
      intro vs hv m
      cases vs with
      | nil => simp at hv
      | cons v vs =>
        have hsub : ∀ p ∈ (List.range' (m + 1) caps.length).zip vs, m + 1 ≤ p.1 := by
          intro p hp
          have := (List.of_mem_zip (a := p.1) (b := p.2) hp).1
          rw [List.mem_range'] at this
          obtain ⟨q, -, h⟩ := this
          omega
        obtain ⟨i1, i2⟩ := ih vs (by simpa using hv) (m + 1)
        constructor
        · intro hall
          simp only [List.length_cons, List.range'_succ, List.zip_cons_cons, List.mem_cons, forall_eq_or_imp,
            Nat.sub_self, List.getElem?_cons_zero, Option.some.injEq] at hall
          rw [i1 fun p hp => ?_, hall.1]
          have h1 := hall.2 p hp
          have h2 := hsub p hp
          rw [show p.1 - m = (p.1 - (m + 1)) + 1 by omega, List.getElem?_cons_succ] at h1
          exact h1
        · intro hall
          simp only [List.length_cons, List.range'_succ, List.zip_cons_cons, List.mem_cons, forall_eq_or_imp,
            Nat.sub_self, List.getElem?_cons_zero, Option.some.injEq] at hall
          obtain ⟨⟨w', hw1, rfl⟩, hall⟩ := hall
          have := i2 fun p hp => by
            have h1 := hall p hp
            have h2 := hsub p hp
            rw [show p.1 - m = (p.1 - (m + 1)) + 1 by omega, List.getElem?_cons_succ] at h1
            exact h1
          simp; omega
  have fin : ∀ i (c : SCall K V) done r, .returned i c done r ∈ l →
      prog hash s₀.length c = sumProg c (List.range s₀.length) 0 →
      ∃ vs : List Nat, r = .num vs.sum ∧ vs.length = (s₀.map B.capacity).length ∧
        ∀ p ∈ (List.range' 0 (s₀.map B.capacity).length).zip vs, .part i ⟨p.1, c, .num p.2⟩ ∈ l := by
    intro i c done r hm hp
    obtain ⟨l1, l2, rfl⟩ := List.append_of_mem hm
    obtain ⟨a, b, h1, h2, h3, h4⟩ := h.returned
    rw [show prog hash (List.length (α := (Container.ofGet B G).block.State) s₀) c = _ from hp] at h4
    obtain ⟨vs, g1, g2, g3⟩ := sumProg_follows h4
    refine ⟨vs, by simpa using g1, by simpa using g2, fun p hpz => ?_⟩
    have := g3 p (by simpa [List.range_eq_range'] using hpz)
    rw [← h3] at this
    have := mem_partsOf this
    rw [h1]
    simp [this]
  constructor
  · intro i done r hm
    obtain ⟨vs, g1, g2, g3⟩ := fin i _ done r hm rfl
    have := (sums _ vs g2 0).1 fun p hp => (parts i p.1 p.2).1 (g3 p hp)
    rw [g1, this]; rfl
  · intro i done r hm
    obtain ⟨vs, g1, g2, g3⟩ := fin i _ done r hm rfl
    exact ⟨vs.sum, (sums _ vs g2 0).2 fun p hp => (parts i p.1 p.2).2 (g3 p hp), g1⟩

end

/-! ### A schedule -/

/-- Perform a schedule. -/
def play (hash : K → Nat) (C : Container K V) : AState K V C.block.State → List (Nat × AAct K V) →
    Option (List (AEv K V) × AState K V C.block.State)
  | s, [] => some ([], s)
  | s, (i, a) :: l => match astep hash C s i a with
    | some (s', e) => (play hash C s' l).map fun x => (e :: x.1, x.2)
    | none => none

theorem play_run {hash : K → Nat} {C : Container K V} {s₀ : AState K V C.block.State} {as} :
    ∀ {s l l' s'}, ARun hash C s₀ l s → play hash C s as = some (l', s') → ARun hash C s₀ (l ++ l') s' := by
  induction as with
  | nil =>
    intro s l l' s' h hp
    simp only [play, Option.some.injEq, Prod.mk.injEq] at hp
    obtain ⟨rfl, rfl⟩ := hp
    simpa using h
  | cons x as ih =>
    intro s l l' s' h hp
    obtain ⟨i, a⟩ := x
    simp only [play] at hp
    split at hp
    · rename_i s1 e hs
      simp only [Option.map_eq_some_iff] at hp
      obtain ⟨⟨l2, s2⟩, h2, h3⟩ := hp
      simp only [Prod.mk.injEq] at h3
      obtain ⟨rfl, rfl⟩ := h3
      simpa using ih (h.snoc hs) h2
    · simp at hp

/-- The events of a run determine its states. -/
theorem astep_det {hash : K → Nat} {C : Container K V} {s s1 s2 : AState K V C.block.State} {i j a b e}
    (h1 : astep hash C s i a = some (s1, e)) (h2 : astep hash C s j b = some (s2, e)) : s1 = s2 := by
  rcases astep_cases h1 with ⟨c, h0, rfl, rfl⟩ | ⟨c, done, r, h0, rfl, rfl⟩ | ⟨c, done, p, h0, rfl, rfl⟩ |
      ⟨c, done, j, d, next, x, r, x', h0, hx, he, rfl, rfl⟩ <;>
    rcases astep_cases h2 with ⟨c, g0, h, rfl⟩ | ⟨c, done, r, g0, h, rfl⟩ | ⟨c, done, p, g0, h, rfl⟩ |
      ⟨c, done, j, d, next, y, r, y', g0, hy, hf, h, rfl⟩ <;> cases h
  · rfl
  · rfl
  · rfl
  · rw [h0] at g0
    cases g0
    rw [hx] at hy
    cases hy
    rw [he] at hf
    cases hf
    rfl

theorem run_det {hash : K → Nat} {C : Container K V} {s₀ s1 : AState K V C.block.State} {l}
    (h1 : ARun hash C s₀ l s1) : ∀ {s2}, ARun hash C s₀ l s2 → s1 = s2 := by
  induction h1 with
  | nil =>
    intro s2 h2
    generalize hl : ([] : List (AEv K V)) = m at h2
    cases h2 with
    | nil => rfl
    | snoc hr hs => simp at hl
  | snoc hr hs ih =>
    intro s2 h2
    obtain ⟨s', i, a, g1, g2⟩ := h2.last
    cases ih g1
    exact astep_det hs g2

theorem play_take {hash : K → Nat} {C : Container K V} : ∀ {as s l s'} (m : Nat),
    play hash C s as = some (l, s') → ∃ sm, play hash C s (as.take m) = some (l.take m, sm)
  | [], s, l, s', m, h => by
    simp only [play, Option.some.injEq, Prod.mk.injEq] at h
    obtain ⟨rfl, rfl⟩ := h
    exact ⟨s, by simp [play]⟩
  | (i, a) :: as, s, l, s', 0, h => ⟨s, by simp [play]⟩
  | (i, a) :: as, s, l, s', m + 1, h => by
    simp only [play] at h
    split at h
    · rename_i s1 e hs
      simp only [Option.map_eq_some_iff] at h
      obtain ⟨⟨l2, s2⟩, h2, h3⟩ := h
      simp only [Prod.mk.injEq] at h3
      obtain ⟨rfl, rfl⟩ := h3
      obtain ⟨sm, h4⟩ := play_take m h2
      exact ⟨sm, by simp [play, hs, h4]⟩
    · simp at h

/-- Two sets of two elements each; the hash is the key. -/
def twoSets : List (Array Nat Nat) := [Array.new 2, Array.new 2]

def two : AState Nat Nat arr.block.State := .new twoSets 2

theorem twoSets_inv : ∀ x ∈ twoSets, Array.Inv (fun _ => 1) x := by
  intro x hx
  simp only [twoSets, List.mem_cons, List.not_mem_nil, or_false, or_self] at hx
  subst hx
  exact Array.new_inv _ 2

theorem twoSets_placed : WellPlaced id Array.values twoSets := by
  intro i c hc e he
  have := List.mem_of_getElem? hc
  simp only [twoSets, List.mem_cons, List.not_mem_nil, or_false, or_self] at this
  subst this
  simp [Array.new] at he

/-- Thread 1 has pushed an element of set 0.  Thread 0 calls `size()` and reads the size of set 0; thread 1
takes the element out, and then pushes an element of set 1; thread 0 reads the size of set 1. -/
def moved : List (Nat × AAct Nat Nat) :=
  [(1, .call (.op (.push [(0, 7)]))), (1, .go), (1, .go), (1, .go),
   (0, .call .size), (0, .go),
   (1, .call (.op (.take 0))), (1, .go), (1, .go),
   (1, .call (.op (.push [(1, 8)]))), (1, .go), (1, .go), (1, .go),
   (0, .go), (0, .go)]

def isSize (v : Nat) : AEv Nat Nat → Bool
  | .returned 0 .size _ (.num w) => v == w
  | _ => false

def allIdle (s : AState Nat Nat arr.block.State) : Bool :=
  s.threads.all fun
    | .idle => true
    | _ => false

/-- Whatever the moment, the container holds at most one element, and `size()` returns 2. -/
theorem moved_sizes : (∀ m ≤ 15, ((play id arr two (moved.take m)).map fun x =>
      decide ((associative id arr.block).size x.2.sets ≤ 1)) = some true) ∧
    ((play id arr two moved).map fun x => (x.1.map (isSize 2), allIdle x.2)) =
      some (List.replicate 14 false ++ [true], true) := by
  decide +kernel

theorem of_isSize {v : Nat} {e : AEv Nat Nat} (h : isSize v e = true) :
    ∃ done, e = .returned 0 .size done (.num v) := by
  unfold isSize at h
  split at h
  · rename_i d w
    have : v = w := by simpa using h
    subst this
    exact ⟨d, rfl⟩
  · cases h

/-- **C74 is false**: `size()` returns 2 although the container never held more than one element. -/
theorem C74_false : ¬ C74_full := by
  intro h
  obtain ⟨hm1, hm2⟩ := moved_sizes
  cases hp : play id arr two moved with
  | none => rw [hp] at hm2; cases hm2
  | some x =>
    obtain ⟨l, s⟩ := x
    have hrun : ARun id arr two l s := by simpa using play_run .nil hp
    rw [hp] at hm2
    simp only [Option.map_some, Option.some.injEq, Prod.mk.injEq] at hm2
    obtain ⟨l1, e, rfl, hl1, he⟩ : ∃ l1 e, l = l1 ++ [e] ∧ l1.length = 14 ∧ isSize 2 e = true := by
      rcases List.eq_nil_or_concat l with rfl | ⟨l1, e, rfl⟩
      · cases hm2.1
      · rw [List.concat_eq_append, List.map_append] at hm2
        have hl := congrArg List.length hm2.1
        simp only [List.length_append, List.length_map, List.length_replicate, List.length_cons, List.length_nil] at hl
        obtain ⟨-, h2⟩ := List.append_inj' hm2.1 rfl
        exact ⟨l1, e, by simp, by omega, by simpa using h2⟩
    obtain ⟨done, rfl⟩ := of_isSize he
    have := h Nat Nat id _ (arrayGet (fun _ => 1) natSorter natSorter) _ _ _
      twoSets 2 _ s (Array.lawful (fun _ => 1) natSorter natSorter)
      (Array.getLawful (fun _ => 1) natSorter natSorter) (fun _ _ => rfl) (List.cons_ne_nil _ _)
      twoSets_inv twoSets_placed hrun
    obtain ⟨a, b, d, s1, t, h1, -, h2, h3⟩ := this l1 [] 0 .size done (.num 2) rfl
    -- the state at that moment
    have hpre : a ++ .called 0 .size :: b = (l1 ++ [AEv.returned 0 .size done (.num 2)]).take
        (a ++ AEv.called 0 .size :: b).length := by
      rw [h1, List.append_assoc _ d, List.take_left]
    have hlen : (a ++ AEv.called 0 .size :: b).length ≤ 15 := by
      have := congrArg List.length h1
      simp only [List.length_append] at this ⊢
      omega
    obtain ⟨sm, h4⟩ := play_take (a ++ AEv.called 0 .size :: b).length hp
    have h5 := hm1 _ hlen
    rw [h4] at h5
    rw [← hpre] at h4
    have h6 : ARun id arr two (a ++ .called 0 .size :: b) sm := by simpa using play_run .nil h4
    cases run_det h2 h6
    simp only [Option.map_some, Option.some.injEq, decide_eq_true_eq] at h5
    simp only [Container.exec, Res.ok.injEq] at h3
    have h7 := congrArg Prod.fst h3
    simp only [SObs.num.injEq] at h7
    have h8 : (associative id arr.block).size s1.sets = 2 := h7
    omega

/-- The hypotheses of the theorems above are met, and the schedule `moved` ends with no call in progress. -/
theorem C74_witness : ∃ l s, ARun id arr two l s ∧ (∀ p ∈ s.threads, p = .idle) ∧
    (List.flatMap Array.values s.sets ++ backIn l).Perm (givenIn l) ∧ givenIn l = [(0, 7), (1, 8)] ∧
    backIn l = [(0, 7)] := by
  have hm : ((play id arr two moved).map fun x =>
      (decide (givenIn x.1 = [(0, 7), (1, 8)]), decide (backIn x.1 = [(0, 7)]), allIdle x.2)) =
      some (true, true, true) := by decide +kernel
  cases hp : play id arr two moved with
  | none => rw [hp] at hm; cases hm
  | some x =>
    obtain ⟨l, s⟩ := x
    have hrun : ARun id arr two l s := by simpa using play_run .nil hp
    rw [hp] at hm
    simp only [Option.map_some, Option.some.injEq, Prod.mk.injEq, decide_eq_true_eq] at hm
    have hidle : ∀ p ∈ s.threads, p = .idle := by
      intro p hpm
      have := List.all_eq_true.1 hm.2.2 p hpm
      cases p <;> first | rfl | cases this
    refine ⟨l, s, hrun, hidle, ?_, hm.1, hm.2.1⟩
    have := C74_conserves_partial (hash := id) (Array.lawful (fun _ => 1) natSorter natSorter)
      (Array.getLawful (fun _ => 1) natSorter natSorter) (fun _ _ => rfl) (fun _ _ _ => trivial)
      (s₀ := twoSets) (n := 2) (List.cons_ne_nil _ _)
      twoSets_inv twoSets_placed hrun (by
          intro i c _
          cases c with
          | op o => cases o <;> trivial
          | _ => trivial) hidle
    exact this

end ConcAssocProps
end Byoc
