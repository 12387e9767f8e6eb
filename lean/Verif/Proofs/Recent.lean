import Verif.Proofs.Policies
import Mathlib.Data.List.Nodup
import Mathlib.Data.List.Induction

/-!
# Textbook caches: lists of keys

`lruStep c` and `fifoStep c` are the caches of capacity `c` of a textbook; `recent` is the list of the keys
used, the last used first.
-/

namespace Byoc.Textbook

open Policy

variable {K : Type} [DecidableEq K]

/-- A cache of `c` keys where the last used key comes first: a key found moves to the front, a key missing
is put in front and the last one goes if there are too many. -/
def lruStep (c : Nat) (l : List K) (k : K) : List K :=
  if k ∈ l then k :: l.erase k else (k :: l).take c

/-- A cache of `c` keys where the last key entered comes first: a key found stays where it is. -/
def fifoStep (c : Nat) (l : List K) (k : K) : List K :=
  if k ∈ l then l else (k :: l).take c

/-- The keys a cache holds after requests. -/
def held (step : List K → K → List K) (ks : List K) : List K := ks.foldl step []

/-- Which requests are found, from the state `l`. -/
def hits (step : List K → K → List K) : List K → List K → List Bool
  | _, [] => []
  | l, k :: ks => decide (k ∈ l) :: hits step (step l k) ks

/-- All the keys used, once each, the last used first. -/
def recent (ks : List K) : List K := ks.foldl (fun l k => k :: l.erase k) []

theorem recent_snoc (ks : List K) (k : K) : recent (ks ++ [k]) = k :: (recent ks).erase k := by
  simp [recent]

theorem nodup_move {l : List K} (k : K) (h : l.Nodup) : (k :: l.erase k).Nodup := by
  rw [List.nodup_cons]
  exact ⟨fun hm => (List.Nodup.mem_erase_iff h).1 hm |>.1 rfl, h.erase k⟩

theorem recent_nodup (ks : List K) : (recent ks).Nodup := by
  induction ks using List.reverseRecOn with
  | nil => exact List.nodup_nil
  | append_singleton ks k ih => rw [recent_snoc]; exact nodup_move k ih

theorem take_move_mem {c : Nat} {l : List K} {k : K} (hk : k ∈ l.take c) :
    (k :: l.erase k).take c = k :: (l.take c).erase k := by
  have h1 : l.erase k = (l.take c).erase k ++ l.drop c := by
    conv_lhs => rw [← List.take_append_drop c l]
    exact List.erase_append_left _ hk
  have h2 := List.length_erase_of_mem hk
  have h3 := List.length_pos_of_mem hk
  have h4 : (l.take c).length = min c l.length := List.length_take
  rw [h1, ← List.cons_append]
  by_cases hc : c ≤ l.length
  · have : (k :: (l.take c).erase k).length = c := by simp only [List.length_cons]; omega
    exact List.take_left' this
  · have : l.drop c = [] := List.drop_eq_nil_of_le (by omega)
    rw [this, List.append_nil, List.take_of_length_le]
    simp only [List.length_cons]; omega

theorem take_move_not_mem {c : Nat} {l : List K} {k : K} (hk : k ∉ l.take c) :
    (k :: l.erase k).take c = (k :: l.take c).take c := by
  have h1 : l.erase k = l.take c ++ (l.drop c).erase k := by
    conv_lhs => rw [← List.take_append_drop c l]
    exact List.erase_append_right _ hk
  cases c with
  | zero => simp
  | succ c =>
    rw [List.take_succ_cons, List.take_succ_cons, h1]
    congr 1
    by_cases hl : c ≤ (l.take (c + 1)).length
    · rw [List.take_append_of_le_length hl]
    · have : l.drop (c + 1) = [] := by
        apply List.drop_eq_nil_of_le
        rw [List.length_take] at hl
        omega
      rw [this]
      simp

/-- The textbook cache holds the `c` keys last used. -/
theorem held_lru (c : Nat) (ks : List K) : held (lruStep c) ks = (recent ks).take c := by
  induction ks using List.reverseRecOn with
  | nil => simp [held, recent]
  | append_singleton ks k ih =>
    have h : held (lruStep c) (ks ++ [k]) = lruStep c (held (lruStep c) ks) k := by simp [held]
    rw [h, ih, recent_snoc]
    unfold lruStep
    split
    · rename_i hk; rw [take_move_mem hk]
    · rename_i hk; rw [take_move_not_mem hk]

/-- Which requests are for one of the `c` keys last used, `pre` being the requests made before. -/
def among (c : Nat) : List K → List K → List Bool
  | _, [] => []
  | pre, k :: ks => decide (k ∈ (recent pre).take c) :: among c (pre ++ [k]) ks

theorem hits_lru (c : Nat) (ks : List K) : ∀ pre : List K,
    hits (lruStep c) (held (lruStep c) pre) ks = among c pre ks := by
  induction ks with
  | nil => intro pre; rfl
  | cons k ks ih =>
    intro pre
    have h : lruStep c (held (lruStep c) pre) k = held (lruStep c) (pre ++ [k]) := by simp [held]
    rw [hits, h, ih, held_lru, among]

/-- A larger textbook cache finds whatever a smaller one finds. -/
theorem hits_lru_mono {c c' : Nat} (hc : c ≤ c') (ks : List K) : ∀ pre : List K,
    List.Forall₂ (fun a b : Bool => a = true → b = true) (hits (lruStep c) (held (lruStep c) pre) ks)
      (hits (lruStep c') (held (lruStep c') pre) ks) := by
  induction ks with
  | nil => intro pre; exact .nil
  | cons k ks ih =>
    intro pre
    have h : ∀ c, lruStep c (held (lruStep c) pre) k = held (lruStep c) (pre ++ [k]) := by
      intro c; simp [held]
    rw [hits, hits, h, h]
    refine .cons ?_ (ih _)
    simp only [held_lru, decide_eq_true_eq]
    exact fun hm => (List.take_sublist_take_left hc).mem hm

/-! ## Order of last uses -/

omit [DecidableEq K] in
theorem before_asymm {h : List K} {x y : K} (h1 : Before h x y) (h2 : Before h y x) : False := by
  obtain ⟨a, b, e, xa, xb, yb⟩ := h1
  obtain ⟨a', b', e', ya, yb', xb'⟩ := h2
  have s1 : b <:+ h := ⟨a, e.symm⟩
  have s2 : b' <:+ h := ⟨a', e'.symm⟩
  rcases List.suffix_or_suffix_of_suffix s1 s2 with hs | hs
  · exact yb' (hs.mem yb)
  · exact xb (hs.mem xb')

omit [DecidableEq K] in
theorem before_snoc {h : List K} {x y k : K} (h1 : Before h x y) (hx : x ≠ k) : Before (h ++ [k]) x y := by
  obtain ⟨a, b, e, xa, xb, yb⟩ := h1
  exact ⟨a, b ++ [k], by rw [e, List.append_assoc], xa, by simp [xb, hx], by simp [yb]⟩

omit [DecidableEq K] in
theorem not_before_last {h : List K} {y k : K} : ¬ Before (h ++ [k]) k y := by
  rintro ⟨a, b, e, xa, xb, yb⟩
  cases b using List.reverseRecOn with
  | nil => cases yb
  | append_singleton b z =>
    rw [← List.append_assoc] at e
    have := (List.append_inj' e rfl).2
    simp only [List.cons.injEq, and_true] at this
    exact xb (by simp [this])

/-- The list `l` of keys goes from the last used to the first used. -/
def Newest (h : List K) (l : List K) : Prop := l.Nodup ∧ (∀ x ∈ l, x ∈ h) ∧ l.Pairwise fun a b => Before h b a

omit [DecidableEq K] in
theorem Newest.enter {h l : List K} {k : K} (c : Nat) (hl : Newest h l) (hk : k ∉ l) :
    Newest (h ++ [k]) ((k :: l).take c) := by
  obtain ⟨h1, h2, h3⟩ := hl
  have hf : Newest (h ++ [k]) (k :: l) := by
    refine ⟨List.nodup_cons.2 ⟨hk, h1⟩, ?_, ?_⟩
    · intro x hx
      rcases List.mem_cons.1 hx with rfl | hx
      · simp
      · simp [h2 x hx]
    · rw [List.pairwise_cons]
      refine ⟨fun b hb => Before.append (h2 b hb) ?_ (by simp), ?_⟩
      · simp only [List.mem_singleton]; rintro rfl; exact hk hb
      · refine h3.imp_of_mem fun {a b} _ hb hab => before_snoc hab ?_
        rintro rfl; exact hk hb
  have hs := List.take_sublist c (k :: l)
  exact ⟨hf.1.sublist hs, fun x hx => hf.2.1 x (hs.mem hx), hf.2.2.sublist hs⟩

theorem Newest.move {h l : List K} {k : K} (hl : Newest h l) : Newest (h ++ [k]) (k :: l.erase k) := by
  obtain ⟨h1, h2, h3⟩ := hl
  have hs : (l.erase k).Sublist l := List.erase_sublist
  have hk : k ∉ l.erase k := fun hm => (List.Nodup.mem_erase_iff h1).1 hm |>.1 rfl
  have := Newest.enter (k := k) (l.length + 1) ⟨h1.sublist hs, fun x hx => h2 x (hs.mem hx), h3.sublist hs⟩ hk
  rwa [List.take_of_length_le (by have := hs.length_le; simp only [List.length_cons]; omega)] at this

omit [DecidableEq K] in
theorem Newest.miss {h l : List K} {k : K} (hl : Newest h l) (hk : k ∉ l) : Newest (h ++ [k]) l :=
  ⟨hl.1, fun x hx => by simp [hl.2.1 x hx],
    hl.2.2.imp_of_mem fun {a b} _ hb hab => before_snoc hab (by rintro rfl; exact hk hb)⟩

/-- What is left after evicting the first used. -/
theorem kept_of_evicted {h l keys kept out : List K} {k : K} {c : Nat} (hl : Newest h l) (hlc : l.length ≤ c)
    (hp : keys.Perm l) (hk : k ∉ l) (hs : (kept ++ out).Perm (keys ++ [k]))
    (ho : out.length = keys.length + 1 - c)
    (hb : ∀ x ∈ out, ∀ y ∈ kept, Before (h ++ [k]) x y) : kept.Perm ((k :: l).take c) := by
  have hlen := hp.length_eq
  have hs' : (kept ++ out).Perm (k :: l) :=
    hs.trans ((List.perm_append_singleton _ _).trans (hp.cons k))
  have hlen' := hs'.length_eq
  simp only [List.length_append, List.length_cons] at hlen'
  by_cases hfull : l.length < c
  · have : out = [] := List.eq_nil_of_length_eq_zero (by omega)
    subst this
    rw [List.take_of_length_le (by simp only [List.length_cons]; omega)]
    simpa using hs'
  · have hc : l.length = c := by omega
    obtain ⟨x, rfl⟩ : ∃ x, out = [x] := List.length_eq_one_iff.1 (by omega)
    have hkl : kept.length = c := by simp at hlen'; omega
    cases hne : l using List.reverseRecOn with
    | nil =>
      subst hne
      simp only [List.length_nil] at hc
      subst hc
      rw [List.eq_nil_of_length_eq_zero hkl]
      simp
    | append_singleton l' z =>
      subst hne
      have hnd := (hl.enter (k := k) ((l' ++ [z]).length + 1) hk).2.2
      rw [List.take_of_length_le (by simp)] at hnd
      have hxz : x = z := by
        by_contra hxz
        have hz : z ∈ kept := by
          have : z ∈ kept ++ [x] := hs'.mem_iff.2 (by simp)
          simp only [List.mem_append, List.mem_singleton] at this
          exact this.resolve_right fun h => hxz h.symm
        have hx : x ∈ k :: (l' ++ [z]) := hs'.mem_iff.1 (by simp)
        have hxz' := hb x (by simp) z hz
        rw [← List.cons_append] at hx hnd
        rcases List.mem_append.1 hx with hx | hx
        · exact before_asymm hxz' ((List.pairwise_append.1 hnd).2.2 x hx z (by simp))
        · exact hxz (by simpa using hx)
      subst hxz
      have h1 : (kept ++ [x]).Perm ((k :: l') ++ [x]) := by simpa using hs'
      have h2 := (List.perm_append_right_iff [x]).1 h1
      have h3 : (k :: (l' ++ [x])).take c = k :: l' := by
        rw [← List.cons_append, List.take_append_of_le_length (by simp at hc ⊢; omega),
          List.take_of_length_le (by simp at hc ⊢; omega)]
      rw [h3]; exact h2

end Byoc.Textbook
