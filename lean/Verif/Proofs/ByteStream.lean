import Verif.Proofs.Stream
import Mathlib.Data.List.Nodup

/-!
# ByteStream: proofs
-/

namespace Byoc

/-- `chunk_size` on any size below `2 ^ 63`, zero included. -/
theorem chunkSize_spec (n : Nat) (hmax : n ≤ 2 ^ 63) :
    ∃ i, chunkSize n = .ok (i, 2 ^ i) ∧ n ≤ 2 ^ i ∧ i < 64 := by
  by_cases h0 : n = 0
  · subst h0; exact ⟨1, by simp [chunkSize, log2], by simp, by decide⟩
  have hn : 0 < n := by omega
  have h1 := log2_le n hn
  have h2 := lt_log2 n
  have h3 : log2 n ≤ 63 := (Nat.pow_le_pow_iff_right (by decide : 1 < 2)).1 (h1.trans hmax)
  unfold chunkSize
  by_cases he : 2 ^ log2 n = n
  · simp only [he, if_true]
    exact ⟨log2 n, by rw [he], by rw [he], by omega⟩
  · simp only [he, if_false]
    have h4 : log2 n + 1 < 64 := by
      by_contra hc
      have h63 : log2 n = 63 := by omega
      rw [h63] at h1 he
      omega
    rw [if_pos h4]
    exact ⟨_, rfl, by omega, h4⟩

namespace ByteStream

open IOVec

variable {K V : Type} (cd : Codec (K × V))

/-- `e` is stored in chunks of `2 ^ i` bytes. -/
def Class (i : Nat) (e : K × V) : Prop :=
  ∃ b, cd.enc e = some b ∧ chunkSize b.length = .ok (i, 2 ^ i)

/-- Number of bytes `e` takes. -/
def csz (e : K × V) : Nat :=
  match cd.enc e with
  | none => 0
  | some b => match chunkSize b.length with
    | .ok (_, c) => c
    | .panic => 0

theorem Class.csz {cd : Codec (K × V)} {i : Nat} {e : K × V} (h : Class cd i e) :
    ByteStream.csz cd e = 2 ^ i := by
  obtain ⟨b, h1, h2⟩ := h
  simp [ByteStream.csz, h1, h2]

/-- Stream number `i` holds the elements `l`. -/
def Good (i : Nat) (o : Option IOVec) (l : List (K × V)) : Prop :=
  match o with
  | none => l = []
  | some v => v.chunk = 2 ^ i ∧ (∃ m, Repr cd v l m) ∧ ∀ e ∈ l, Class cd i e

/-- Streams number `i`, `i + 1`, … hold the elements `ls`. -/
inductive Streams : Nat → List (Option IOVec) → List (List (K × V)) → Prop
  | nil (i) : Streams i [] []
  | cons {i o st l ls} : Good cd i o l → Streams (i + 1) st ls → Streams i (o :: st) (l :: ls)

variable {cd}

theorem Good.items {i : Nat} {o : Option IOVec} {l : List (K × V)} (h : Good cd i o l) :
    items cd o = .ok l := by
  cases o with
  | none => simp only [Good] at h; subst h; rfl
  | some v =>
    obtain ⟨h1, ⟨m, h2⟩, -⟩ := h
    exact h2.iter (by rw [h1]; exact goodChunk_pow i)

theorem Good.size {i : Nat} {o : Option IOVec} {l : List (K × V)} (h : Good cd i o l) :
    sizeOpt o = total (csz cd) l := by
  cases o with
  | none => simp only [Good] at h; subst h; rfl
  | some v =>
    obtain ⟨h1, ⟨m, h2⟩, h3⟩ := h
    simp only [sizeOpt]
    rw [h2.size, h1]
    clear h2
    induction l with
    | nil => simp
    | cons e l ih =>
      rw [List.length_cons, Nat.succ_mul, ih (fun x hx => h3 x (by simp [hx])), total_cons,
        (h3 e (by simp)).csz, Nat.add_comm]

theorem Streams.size {i : Nat} {st : List (Option IOVec)} {ls : List (List (K × V))}
    (h : Streams cd i st ls) :
    (st.map sizeOpt).sum = total (csz cd) ls.flatten := by
  induction h with
  | nil => rfl
  | cons hg _ ih => rw [List.map_cons, List.sum_cons, ih, hg.size, List.flatten_cons, total_append]

theorem Streams.length {i : Nat} {st : List (Option IOVec)} {ls : List (List (K × V))}
    (h : Streams cd i st ls) : st.length = ls.length := by
  induction h with
  | nil => rfl
  | cons _ _ ih => simp [ih]

theorem Streams.get {i : Nat} {st : List (Option IOVec)} {ls : List (List (K × V))}
    (h : Streams cd i st ls) (j : Nat) (l : List (K × V)) (hj : ls[j]? = some l) :
    ∃ o, st[j]? = some o ∧ Good cd (i + j) o l := by
  induction h generalizing j with
  | nil => simp at hj
  | @cons i o st l' ls hg _ ih =>
    cases j with
    | zero => simp at hj; subst hj; exact ⟨o, by simp, hg⟩
    | succ j =>
      obtain ⟨o', h1, h2⟩ := ih j (by simpa using hj)
      exact ⟨o', by simpa using h1, by rw [show i + (j + 1) = i + 1 + j by omega]; exact h2⟩

theorem Streams.set {i : Nat} {st : List (Option IOVec)} {ls : List (List (K × V))}
    (h : Streams cd i st ls) (j : Nat) (o : Option IOVec) (l : List (K × V))
    (hg : Good cd (i + j) o l) : Streams cd i (st.set j o) (ls.set j l) := by
  induction h generalizing j with
  | nil => exact .nil _
  | @cons i o' st l' ls hg' hr ih =>
    cases j with
    | zero => exact .cons hg hr
    | succ j => exact .cons hg' (ih j (by rw [show i + 1 + j = i + (j + 1) by omega]; exact hg))

theorem Streams.contains [DecidableEq K] {i : Nat} {st : List (Option IOVec)}
    {ls : List (List (K × V))} (h : Streams cd i st ls) (k : K) :
    ∃ b, containsGo cd k st = .ok b ∧ (b = true ↔ HasKey ls.flatten k) := by
  induction h with
  | nil => exact ⟨false, rfl, by simp [HasKey]⟩
  | @cons i o st l ls hg _ ih =>
    simp only [containsGo, hg.items, Res.ok_bind, List.flatten_cons]
    obtain ⟨b, h1, h2⟩ := ih
    by_cases hk : HasKey l k
    · obtain ⟨v, hv⟩ := hk
      have : l.any (fun e => decide (e.1 = k)) = true := List.any_eq_true.2 ⟨(k, v), hv, by simp⟩
      rw [this]
      exact ⟨true, rfl, by simpa using ⟨v, by simp [hv]⟩⟩
    · have : l.any (fun e => decide (e.1 = k)) = false := by
        rw [List.any_eq_false]
        rintro ⟨a, v⟩ he hd
        simp at hd; subst hd
        exact hk ⟨v, he⟩
      rw [this]
      refine ⟨b, by simpa using h1, h2.trans ?_⟩
      constructor
      · rintro ⟨v, hv⟩; exact ⟨v, by simp only [List.mem_append]; exact Or.inr hv⟩
      · rintro ⟨v, hv⟩
        rcases List.mem_append.1 hv with hv | hv
        · exact absurd ⟨v, hv⟩ hk
        · exact ⟨v, hv⟩

theorem Streams.find [DecidableEq K] {i : Nat} {st : List (Option IOVec)}
    {ls : List (List (K × V))} (h : Streams cd i st ls) (k : K) :
    (findGo cd k i st = .ok none ∧ ¬ HasKey ls.flatten k) ∨
    ∃ a j l e, findGo cd k i st = .ok (some (i + a, j)) ∧ ls[a]? = some l ∧ l[j]? = some e ∧
      e.1 = k := by
  induction h with
  | nil => exact Or.inl ⟨rfl, by simp [HasKey]⟩
  | @cons i o st l ls hg _ ih =>
    simp only [findGo, hg.items, Res.ok_bind, List.flatten_cons]
    cases hf : findKey l k with
    | some j =>
      obtain ⟨e, h1, h2, -⟩ := findKey_some hf
      exact Or.inr ⟨0, j, l, e, by simp, by simp, h1, h2⟩
    | none =>
      have hn := findKey_none hf
      rcases ih with ⟨h1, h2⟩ | ⟨a, j, l', e, h1, h2, h3, h4⟩
      · refine Or.inl ⟨h1, ?_⟩
        rintro ⟨v, hv⟩
        rcases List.mem_append.1 hv with hv | hv
        · exact hn ⟨v, hv⟩
        · exact h2 ⟨v, hv⟩
      · exact Or.inr ⟨a + 1, j, l', e, by simp only [h1]; congr 3; omega, by simpa using h2, h3, h4⟩

theorem flatten_set_perm {E : Type} {ls : List (List E)} {i : Nat} {l l' d d' : List E}
    (hi : ls[i]? = some l) (hp : (d ++ l).Perm (d' ++ l')) :
    (d ++ ls.flatten).Perm (d' ++ (ls.set i l').flatten) := by
  induction ls generalizing i with
  | nil => simp at hi
  | cons x ls ih =>
    cases i with
    | zero =>
      simp at hi; subst hi
      simp only [List.flatten_cons, List.set_cons_zero]
      perms [hp]
    | succ i =>
      have := ih (by simpa using hi)
      simp only [List.flatten_cons, List.set_cons_succ]
      perms [this]

theorem mem_swapRemove {E : Type} {l : List E} {i : Nat} {e x : E} (h : l[i]? = some e)
    (hx : x ∈ Byoc.swapRemove l i) : x ∈ l :=
  (swapRemove_perm h).subset (List.mem_cons_of_mem _ hx)

theorem Streams.removeAt {st : List (Option IOVec)} {ls : List (List (K × V))}
    (h : Streams cd 0 st ls) (i j : Nat) (l : List (K × V)) (e : K × V)
    (hi : ls[i]? = some l) (hj : l[j]? = some e) :
    ∃ st', removeAt cd st i j = .ok (some e, st') ∧
      Streams cd 0 st' (ls.set i (Byoc.swapRemove l j)) := by
  obtain ⟨o, h1, h2⟩ := h.get i l hi
  rw [Nat.zero_add] at h2
  cases o with
  | none => simp only [Good] at h2; subst h2; simp at hj
  | some v =>
    obtain ⟨g1, ⟨m, g2⟩, g3⟩ := h2
    obtain ⟨v', m', k1, k2, k3⟩ := g2.swapRemove j e hj
    refine ⟨st.set i (some v'), by simp [ByteStream.removeAt, h1, k1], h.set i _ _ ?_⟩
    rw [Nat.zero_add]
    exact ⟨k2.trans g1, ⟨m', k3⟩, fun x hx => g3 x (mem_swapRemove hj hx)⟩

/-- The element at a place. -/
def at' (ls : List (List (K × V))) (p : Nat × Nat) : Option (K × V) := ls[p.1]?.bind (·[p.2]?)

/-- Strict lexicographic order of places. -/
def plt (p q : Nat × Nat) : Prop := p.1 < q.1 ∨ (p.1 = q.1 ∧ p.2 < q.2)

theorem swapRemove_get_lt {E : Type} {l : List E} {j j' : Nat} (h : j' < j) (hj : j < l.length) :
    (Byoc.swapRemove l j)[j']? = l[j']? := by
  unfold Byoc.swapRemove
  cases hl : l.getLast? with
  | none => rw [List.getLast?_eq_none_iff] at hl; subst hl; simp at hj
  | some x =>
    simp only
    rw [List.getElem?_set_ne (by omega), List.dropLast_eq_take, List.getElem?_take_of_lt (by omega)]

theorem at_some {ls : List (List (K × V))} {p : Nat × Nat} {e : K × V} (h : at' ls p = some e) :
    ∃ l, ls[p.1]? = some l ∧ l[p.2]? = some e := by
  unfold at' at h
  cases hl : ls[p.1]? with
  | none => simp [hl] at h
  | some l => exact ⟨l, rfl, by simpa [hl] using h⟩

theorem at_set_lt {ls : List (List (K × V))} {p q : Nat × Nat} {l : List (K × V)} {e : K × V}
    (hl : ls[p.1]? = some l) (he : l[p.2]? = some e) (hlt : plt q p) :
    at' (ls.set p.1 (Byoc.swapRemove l p.2)) q = at' ls q := by
  unfold at'
  rcases hlt with h | ⟨h1, h2⟩
  · rw [List.getElem?_set_ne (by omega)]
  · rw [h1]
    have hlen : p.1 < ls.length := (List.getElem?_eq_some_iff.1 hl).1
    rw [List.getElem?_set_self hlen, hl]
    simp only [Option.bind_some]
    exact swapRemove_get_lt h2 (List.getElem?_eq_some_iff.1 he).1

theorem Streams.removeAll (ps : List (Nat × Nat)) : ∀ (st : List (Option IOVec))
    (ls : List (List (K × V))), Streams cd 0 st ls → ps.Pairwise (fun p q => plt q p) →
    (∀ p ∈ ps, (at' ls p).isSome) →
    ∃ out st' ls', removeAll cd ps st = .ok (out, st') ∧ Streams cd 0 st' ls' ∧
      ls'.length = ls.length ∧ (out ++ ls'.flatten).Perm ls.flatten ∧
      out.map some = ps.map (at' ls) := by
  induction ps with
  | nil => intro st ls h _ _; exact ⟨[], st, ls, rfl, h, rfl, by simp, rfl⟩
  | cons p ps ih =>
    intro st ls h hp hs
    obtain ⟨e, he⟩ := Option.isSome_iff_exists.1 (hs p (by simp))
    obtain ⟨l, h1, h2⟩ := at_some he
    obtain ⟨st1, k1, k2⟩ := h.removeAt p.1 p.2 l e h1 h2
    rw [List.pairwise_cons] at hp
    have hat : ∀ q ∈ ps, at' (ls.set p.1 (Byoc.swapRemove l p.2)) q = at' ls q :=
      fun q hq => at_set_lt h1 h2 (hp.1 q hq)
    obtain ⟨out, st', ls', g1, g2, g3, g4, g5⟩ := ih st1 _ k2 hp.2
      (fun q hq => by rw [hat q hq]; exact hs q (by simp [hq]))
    refine ⟨e :: out, st', ls', by simp [ByteStream.removeAll, k1, g1], g2, by simpa using g3, ?_, ?_⟩
    · have h3 : ls.flatten.Perm ([e] ++ (ls.set p.1 (Byoc.swapRemove l p.2)).flatten) := by
        have := flatten_set_perm (d := []) (d' := [e]) (l' := Byoc.swapRemove l p.2) h1
          (by simpa using (swapRemove_perm h2).symm)
        simpa using this
      simp only [List.cons_append, List.nil_append] at h3 ⊢
      perms [g4, h3]
    · rw [List.map_cons, List.map_cons, g5, he]
      congr 1
      exact List.map_congr_left hat

/-! ### What `pop` puts in the `KMin` -/

/-- The place of a slot. -/
def place {R : Type} (x : Slot R × Nat) : Nat × Nat := ofLex (ofLex x.1).2

theorem slots_spec {R : Type} (rank : V → R) (i c : Nat) (pre : List (List (K × V))) (post : List (List (K × V)))
    (done : List (K × V)) : ∀ (l : List (K × V)) (j : Nat), j = done.length →
    i = pre.length →
    ((slots rank i c j l).map fun x => at' (pre ++ (done ++ l) :: post) (place x)) = l.map some := by
  intro l
  induction l generalizing done with
  | nil => intro j _ _; rfl
  | cons e l ih =>
    intro j hj hi
    simp only [slots, List.map_cons]
    have := ih (done ++ [e]) (j + 1) (by simp [hj]) hi
    rw [List.append_assoc, List.singleton_append] at this
    rw [this]
    congr 1
    simp [at', place, hi, hj]

theorem slots_form {R : Type} (rank : V → R) (i c : Nat) : ∀ (l : List (K × V)) (j : Nat) (x : Slot R × Nat), x ∈ slots rank i c j l →
    ∃ a e, l[a]? = some e ∧ x = (toLex (rank e.2, toLex (i, j + a)), c) := by
  intro l
  induction l with
  | nil => intro j x hx; simp [slots] at hx
  | cons e l ih =>
    intro j x hx
    simp only [slots, List.mem_cons] at hx
    rcases hx with rfl | hx
    · exact ⟨0, e, by simp, by simp⟩
    · obtain ⟨a, e', h1, h2⟩ := ih (j + 1) x hx
      exact ⟨a + 1, e', by simpa using h1, by rw [h2, show j + 1 + a = j + (a + 1) by omega]⟩

theorem slots_nodup {R : Type} (rank : V → R) (i c : Nat) : ∀ (l : List (K × V)) (j : Nat), (slots rank i c j l).Nodup := by
  intro l
  induction l with
  | nil => intro j; simp [slots]
  | cons e l ih =>
    intro j
    simp only [slots, List.nodup_cons]
    refine ⟨fun hx => ?_, ih (j + 1)⟩
    obtain ⟨a, e', -, h2⟩ := slots_form rank i c l (j + 1) _ hx
    have := congrArg place h2
    simp only [place, ofLex_toLex, Prod.mk.injEq] at this
    omega

theorem Streams.allSlots {R : Type} (rank : V → R) {i : Nat} {st : List (Option IOVec)} {ls : List (List (K × V))}
    (h : Streams cd i st ls) : ∃ S, allSlots cd rank i st = .ok S ∧ S.Nodup ∧
      (∀ pre : List (List (K × V)), i = pre.length →
        (S.map fun x => at' (pre ++ ls) (place x)) = ls.flatten.map some) ∧
      ∀ x ∈ S, ∃ a j l e, ls[a]? = some l ∧ l[j]? = some e ∧
        x = (toLex (rank e.2, toLex (i + a, j)), 2 ^ (i + a)) := by
  induction h with
  | nil => exact ⟨[], rfl, by simp, by simp, by simp⟩
  | @cons i o st l ls hg _ ih =>
    obtain ⟨S, h1, h2, h3, h4⟩ := ih
    have hshift : ∀ x ∈ S, ∃ a j l' e, (l :: ls)[a]? = some l' ∧ l'[j]? = some e ∧
        x = (toLex (rank e.2, toLex (i + a, j)), 2 ^ (i + a)) := by
      intro x hx
      obtain ⟨a, j, l', e, k1, k2, k3⟩ := h4 x hx
      refine ⟨a + 1, j, l', e, by simpa using k1, k2, ?_⟩
      rw [k3, show i + 1 + a = i + (a + 1) by omega]
    have hrest : ∀ pre : List (List (K × V)), i = pre.length →
        (S.map fun x => at' (pre ++ l :: ls) (place x)) = ls.flatten.map some := by
      intro pre hpre
      have := h3 (pre ++ [l]) (by simp [hpre])
      simpa using this
    cases o with
    | none =>
      simp only [Good] at hg; subst hg
      refine ⟨S, by simpa [ByteStream.allSlots] using h1, h2, ?_, hshift⟩
      intro pre hpre
      rw [hrest pre hpre]; simp
    | some v =>
      obtain ⟨g1, ⟨m, g2⟩, g3⟩ := hg
      have hit : v.iter cd = .ok l := g2.iter (by rw [g1]; exact goodChunk_pow i)
      refine ⟨slots rank i v.chunk 0 l ++ S, by simp [ByteStream.allSlots, hit, h1], ?_, ?_, ?_⟩
      · rw [List.nodup_append]
        refine ⟨slots_nodup rank i _ l 0, h2, ?_⟩
        intro x hx y hy hxy
        subst hxy
        obtain ⟨a, e, -, k2⟩ := slots_form rank i _ l 0 x hx
        obtain ⟨a', j', l', e', -, -, m3⟩ := h4 x hy
        rw [k2] at m3
        have := congrArg place m3
        simp only [place, ofLex_toLex, Prod.mk.injEq] at this
        omega
      · intro pre hpre
        rw [List.map_append, hrest pre hpre, List.flatten_cons, List.map_append]
        congr 1
        exact slots_spec rank i v.chunk pre ls [] l 0 rfl hpre
      · intro x hx
        rcases List.mem_append.1 hx with hx | hx
        · obtain ⟨a, e, k1, k2⟩ := slots_form rank i _ l 0 x hx
          exact ⟨0, a, l, e, by simp, k1, by rw [k2, g1]; simp⟩
        · exact hshift x hx

theorem plt_irrefl (p : Nat × Nat) : ¬ plt p p := by simp [plt]

theorem descending_spec (l : List (Nat × Nat)) (hl : l.Nodup) :
    (descending l).Perm l ∧ (descending l).Pairwise (fun p q => plt q p) := by
  have hp : (descending l).Perm l := by
    unfold descending
    have := (List.perm_insertionSort (fun a b : Nat ×ₗ Nat => b ≤ a) (l.map toLex)).map ofLex
    rw [List.map_map] at this
    have hid : (⇑ofLex ∘ ⇑toLex : Nat × Nat → Nat × Nat) = id := rfl
    rw [hid, List.map_id] at this
    exact this
  refine ⟨hp, ?_⟩
  have hnd : (descending l).Nodup := hp.nodup_iff.2 hl
  have hs : (descending l).Pairwise (fun p q => toLex q ≤ toLex p) := by
    unfold descending
    rw [List.pairwise_map]
    have : Std.Total (fun a b : Nat ×ₗ Nat => b ≤ a) := ⟨fun a b => le_total b a⟩
    have : IsTrans (Nat ×ₗ Nat) (fun a b => b ≤ a) := ⟨fun a b c h h' => le_trans h' h⟩
    exact List.pairwise_insertionSort (fun a b : Nat ×ₗ Nat => b ≤ a) (l.map toLex)
  refine (hs.and hnd).imp ?_
  rintro ⟨a, b⟩ ⟨c, d⟩ ⟨h, hne⟩
  rw [Prod.Lex.le_iff] at h
  simp only [ofLex_toLex] at h
  unfold plt
  rcases h with h | ⟨h1, h2⟩
  · exact Or.inl h
  · refine Or.inr ⟨h1, ?_⟩
    simp only at h1 h2 ⊢
    rcases Nat.lt_or_ge d b with h | h
    · exact h
    · exfalso; apply hne; rw [Prod.mk.injEq]; exact ⟨h1.symm, by omega⟩

/-- The result of `pop`. -/
theorem Streams.pop {R : Type} [LinearOrder R] (rank : V → R) {s : ByteStream} {ls : List (List (K × V))}
    (h : Streams cd 0 s.stream ls) (n : Nat) :
    ∃ out s' ls', popBy cd rank s n = .ok (out, s') ∧ s'.capacity = s.capacity ∧
      Streams cd 0 s'.stream ls' ∧ ls'.length = ls.length ∧ (out ++ ls'.flatten).Perm ls.flatten ∧
      (ls'.flatten = [] ∨ n ≤ total (csz cd) out) ∧
      ∀ e ∈ out, ∀ d ∈ ls'.flatten, rank d.2 ≤ rank e.2 := by
  obtain ⟨S, h1, h2, h3, h4⟩ := h.allSlots rank
  have h3 := h3 [] rfl
  simp only [List.nil_append, Nat.zero_add] at h3 h4
  obtain ⟨m, k1, k2, k3, -⟩ := KMin.pushAll_spec S (KMin.new n : KMin (Slot R)) [] (KMin.new_inv n)
  simp only [List.nil_append] at k2
  have k3 : m.max = n := k3
  have hsub := k2.sub
  have hmn : m.items.Nodup :=
    k2.sorted.imp (fun {a b} (hlt : KMin.lt a b) (he : a = b) =>
      KMin.lt_irrefl a (by rw [← he] at hlt; exact hlt))
  -- places of slots are distinct
  have hinj : ∀ x ∈ S, ∀ y ∈ S, place x = place y → x = y := by
    intro x hx y hy hxy
    obtain ⟨a, j, l, e, p1, p2, p3⟩ := h4 x hx
    obtain ⟨a', j', l', e', q1, q2, q3⟩ := h4 y hy
    rw [p3, q3] at hxy
    simp only [place, ofLex_toLex, Prod.mk.injEq] at hxy
    obtain ⟨rfl, rfl⟩ := hxy
    rw [p1] at q1; cases q1
    rw [p2] at q2; cases q2
    rw [p3, q3]
  have hpn : (m.items.map place).Nodup := by
    rw [List.nodup_map_iff_inj_on hmn]
    intro x hx y hy hxy
    exact hinj x (hsub x hx) y (hsub y hy) hxy
  obtain ⟨d1, d2⟩ := descending_spec _ hpn
  have hat : ∀ x ∈ S, (at' ls (place x)).isSome := by
    intro x hx
    obtain ⟨a, j, l, e, p1, p2, p3⟩ := h4 x hx
    simp [p3, place, at', p1, p2]
  have hsome : ∀ p ∈ descending (m.items.map place), (at' ls p).isSome := by
    intro p hp
    obtain ⟨x, hx, rfl⟩ := List.mem_map.1 (d1.subset hp)
    exact hat x (hsub x hx)
  obtain ⟨out, st', ls', g1, g2, g3, g4, g5⟩ := Streams.removeAll _ s.stream ls h d2 hsome
  -- what is kept and what is left
  classical
  have hperm : S.Perm (m.items ++ S.filter (fun x => x ∉ m.items)) := by
    rw [List.perm_ext_iff_of_nodup h2]
    · intro x
      simp only [List.mem_append, List.mem_filter, decide_eq_true_eq]
      constructor
      · intro hx
        by_cases hm : x ∈ m.items
        · exact Or.inl hm
        · exact Or.inr ⟨hx, hm⟩
      · rintro (hx | hx)
        · exact hsub x hx
        · exact hx.1
    · rw [List.nodup_append]
      refine ⟨hmn, h2.filter _, ?_⟩
      intro x hx y hy hxy
      subst hxy
      simp [hx] at hy
  have hout : (out.map some).Perm (m.items.map fun x => at' ls (place x)) := by
    rw [g5]
    have := d1.map (at' ls)
    rwa [List.map_map] at this
  have hleft : (ls'.flatten.map some).Perm
      ((S.filter (fun x => x ∉ m.items)).map fun x => at' ls (place x)) := by
    have e1 := hperm.map (fun x => at' ls (place x))
    rw [h3, List.map_append] at e1
    have e2 := g4.map (some : K × V → _)
    rw [List.map_append] at e2
    exact (List.perm_append_left_iff (out.map some)).1
      (e2.trans (e1.trans (hout.symm.append_right _)))
  refine ⟨out, { s with stream := st' }, ls', ?_, rfl, g2, g3, g4, ?_, ?_⟩
  · simp only [ByteStream.popBy, h1, Res.ok_bind, k1]
    rw [show (m.items.map fun x => ofLex (ofLex x.1).2) = m.items.map place from rfl, g1]
    rfl
  · by_cases hall : ∃ d ∈ S, d ∉ m.items
    · right
      have henough := k2.enough hall
      rw [k3] at henough
      refine le_trans henough (le_of_eq ?_)
      -- total size of the items is the total size of the elements taken
      have e1 : total Prod.snd m.items =
          ((m.items.map fun x => at' ls (place x)).map fun o => (o.map (csz cd)).getD 0).sum := by
        rw [List.map_map, total]
        congr 1
        apply List.map_congr_left
        intro x hx
        obtain ⟨a, j, l, e, p1, p2, p3⟩ := h4 x (hsub x hx)
        obtain ⟨o, q1, q2⟩ := h.get a l p1
        rw [Nat.zero_add] at q2
        have hc : Class cd a e := by
          cases o with
          | none => simp only [Good] at q2; subst q2; simp at p2
          | some v => exact q2.2.2 e (List.mem_of_getElem? p2)
        simp [p3, place, at', p1, p2, hc.csz]
      rw [KMin.sum, e1, ← (hout.map _).sum_nat]
      rw [List.map_map, total]
      congr 1
    · left
      push Not at hall
      have : S.filter (fun x => x ∉ m.items) = [] := by
        rw [List.filter_eq_nil_iff]
        intro x hx
        simpa using hall x hx
      rw [this] at hleft
      simpa using hleft
  · intro e he d hd
    have he' : some e ∈ m.items.map fun x => at' ls (place x) :=
      hout.subset (List.mem_map_of_mem he)
    have hd' : some d ∈ (S.filter (fun x => x ∉ m.items)).map fun x => at' ls (place x) :=
      hleft.subset (List.mem_map_of_mem hd)
    obtain ⟨x, hx, hx'⟩ := List.mem_map.1 he'
    obtain ⟨y, hy, hy'⟩ := List.mem_map.1 hd'
    simp only [List.mem_filter, decide_eq_true_eq] at hy
    have hval : ∀ z ∈ S, ∀ q, at' ls (place z) = some q → (ofLex z.1).1 = rank q.2 := by
      intro z hz q hq
      obtain ⟨a, j, l, e, p1, p2, p3⟩ := h4 z hz
      simp only [p3, place, at', ofLex_toLex, p1, Option.bind_some, p2, Option.some.injEq] at hq
      subst hq
      simp [p3]
    rw [← hval x (hsub x hx) e hx', ← hval y hy.1 d hy']
    have hlt := k2.top y hy.1 hy.2 x hx
    rcases hlt with hlt | ⟨heq, -⟩
    · have := hlt.le
      rw [Prod.Lex.le_iff] at this
      rcases this with t | ⟨t, -⟩
      · exact t.le
      · exact t.le
    · rw [heq]

end ByteStream
end Byoc
