import Verif.Model.Inclusive
import Verif.Proofs.Inclusive

/-!
# The elements of an `Inclusive` used as a cache

Plain lists: `fr` what the front level holds, `L` what the back level holds, the last pushed first, `l` the keys and the
values seen by the user, in the same order.
-/

namespace Byoc.InclCache

set_option linter.unusedSectionVars false

variable {K V I T : Type} [LinearOrder K] [LinearOrder T]

/-- Replace the element of key `k`. -/
def upd {X : Type} (k : K) (x : X) (l : List (K × X)) : List (K × X) := l.map fun e => if e.1 = k then (k, x) else e

theorem upd_keys {X : Type} (k : K) (x : X) (l : List (K × X)) : (upd k x l).map Prod.fst = l.map Prod.fst := by
  unfold upd
  rw [List.map_map]
  refine List.map_congr_left fun e _ => ?_
  simp only [Function.comp]
  split
  · rename_i h; exact h.symm
  · rfl

theorem upd_length {X : Type} (k : K) (x : X) (l : List (K × X)) : (upd k x l).length = l.length := List.length_map _

theorem mem_upd {X : Type} {k : K} {x : X} {l : List (K × X)} {e : K × X} (h : e ∈ upd k x l) :
    (e = (k, x) ∧ ∃ y, (k, y) ∈ l) ∨ (e ∈ l ∧ e.1 ≠ k) := by
  obtain ⟨e', h1, h2⟩ := List.mem_map.1 h
  split at h2
  · rename_i hk; subst hk; exact .inl ⟨h2.symm, e'.2, h1⟩
  · subst h2; exact .inr ⟨h1, by assumption⟩

theorem mem_upd_of {X : Type} {k : K} {x : X} {l : List (K × X)} {e : K × X} (h : e ∈ l) (hk : e.1 ≠ k) :
    e ∈ upd k x l := List.mem_map.2 ⟨e, h, if_neg hk⟩

theorem mem_upd_self {X : Type} {k : K} {x y : X} {l : List (K × X)} (h : (k, y) ∈ l) :
    (k, x) ∈ upd k x l := List.mem_map.2 ⟨_, h, if_pos rfl⟩

/-- An element of a list with distinct keys. -/
theorem same_of_key {X : Type} {l : List (K × X)} (hn : (l.map Prod.fst).Nodup) {a b : K × X} (ha : a ∈ l) (hb : b ∈ l)
    (h : a.1 = b.1) : a = b := List.inj_on_of_nodup_map hn ha hb h

theorem upd_perm {X : Type} {k : K} {x y : X} {l rest : List (K × X)} (hn : (l.map Prod.fst).Nodup)
    (h : l.Perm ((k, y) :: rest)) : (upd k x l).Perm ((k, x) :: rest) := by
  have h1 : (upd k x l).Perm (upd k x ((k, y) :: rest)) := h.map _
  have hn' : (((k, y) :: rest).map Prod.fst).Nodup := (h.map Prod.fst).nodup_iff.1 hn
  rw [List.map_cons, List.nodup_cons] at hn'
  refine h1.trans ?_
  unfold upd
  rw [List.map_cons, if_pos rfl]
  have h2 : (rest.map fun e => if e.1 = k then (k, x) else e) = rest := by
    conv_rhs => rw [← List.map_id rest]
    refine List.map_congr_left fun e he => ?_
    have : e.1 ≠ k := by
      intro hek
      exact hn'.1 (List.mem_map.2 ⟨e, he, hek⟩)
    rw [if_neg this]; rfl
  rw [h2]

/-- What the levels of an `Inclusive` hold when a cache would hold `l`. -/
structure Held (stamp : I → T) (un : I → V) (touch : Bool) (now : T) (fr L : List (K × InclCell I)) (l : List (K × V)) :
    Prop where
  keys : L.map Prod.fst = l.map Prod.fst
  nodup : (L.map Prod.fst).Nodup
  desc : L.Pairwise fun a b => stamp b.2.value < stamp a.2.value
  past : ∀ e ∈ L, stamp e.2.value < now
  fnodup : (fr.map Prod.fst).Nodup
  front : ∀ e ∈ fr, e.2.cloned = true ∧ ∃ b ∈ L, b.1 = e.1 ∧ b.2.cloned = true ∧
    (touch = false → stamp e.2.value = stamp b.2.value) ∧ (e.2.updated = false → un e.2.value = un b.2.value)
  clean : touch = true → ∀ e, e ∈ fr ∨ e ∈ L → e.2.updated = false
  seen : ∀ e ∈ l, ∀ x : K × InclCell I, x.1 = e.1 → (x ∈ fr ∨ (x ∈ L ∧ ∀ y ∈ fr, y.1 ≠ e.1)) → un x.2.value = e.2

variable {stamp : I → T} {un : I → V} {touch : Bool} {now : T} {fr L : List (K × InclCell I)} {l : List (K × V)}

theorem Held.perm (h : Held stamp un touch now fr L l) {fr' : List (K × InclCell I)} (hp : fr'.Perm fr) :
    Held stamp un touch now fr' L l where
  keys := h.keys
  nodup := h.nodup
  desc := h.desc
  past := h.past
  fnodup := (hp.map Prod.fst).nodup_iff.2 h.fnodup
  front e he := h.front e (hp.mem_iff.1 he)
  clean ht e he := h.clean ht e (he.imp_left hp.mem_iff.1)
  seen e he x hx hy := h.seen e he x hx (hy.imp hp.mem_iff.1 fun ⟨h1, h2⟩ => ⟨h1, fun y hy => h2 y (hp.mem_iff.2 hy)⟩)

theorem Held.later (h : Held stamp un touch now fr L l) {now' : T} (hl : now ≤ now') : Held stamp un touch now' fr L l :=
  { h with past := fun e he => lt_of_lt_of_le (h.past e he) hl }

theorem Held.nodup' (h : Held stamp un touch now fr L l) : (l.map Prod.fst).Nodup := h.keys ▸ h.nodup

/-- Replacing an element of the back by one of the same stamp. -/
theorem desc_upd {k : K} {c d : InclCell I} (hn : (L.map Prod.fst).Nodup) (hc : (k, c) ∈ L)
    (hs : stamp d.value = stamp c.value) (hd : L.Pairwise fun a b => stamp b.2.value < stamp a.2.value) :
    (upd k d L).Pairwise fun a b => stamp b.2.value < stamp a.2.value := by
  unfold upd
  rw [List.pairwise_map]
  have e : ∀ a ∈ L, stamp (if a.1 = k then (k, d) else a : K × InclCell I).2.value = stamp a.2.value := by
    intro a ha
    split
    · rename_i hk
      have := same_of_key hn ha hc hk
      subst this
      exact hs
    · rfl
  exact hd.imp_of_mem fun {a b} ha hb hab => by rw [e a ha, e b hb]; exact hab

theorem past_upd {k : K} {c d : InclCell I} (hc : (k, c) ∈ L) (hs : stamp d.value = stamp c.value)
    (hd : ∀ e ∈ L, stamp e.2.value < now) : ∀ e ∈ upd k d L, stamp e.2.value < now := by
  intro e he
  rcases mem_upd he with ⟨rfl, -⟩ | ⟨he, -⟩
  · rw [show stamp (k, d).2.value = stamp c.value from hs]; exact hd _ hc
  · exact hd e he

/-- An element is copied to the front. -/
theorem Held.clone (h : Held stamp un touch now fr L l) {k : K} {c : InclCell I} (hc : (k, c) ∈ L)
    (hk : ∀ e ∈ fr, e.1 ≠ k) : Held stamp un touch now ((k, c.clone) :: fr) (upd k c.clone L) l where
  keys := by rw [upd_keys]; exact h.keys
  nodup := by rw [upd_keys]; exact h.nodup
  desc := desc_upd h.nodup hc rfl h.desc
  past := past_upd hc rfl h.past
  fnodup := by
    rw [List.map_cons, List.nodup_cons]
    refine ⟨fun hm => ?_, h.fnodup⟩
    obtain ⟨e, he, h1⟩ := List.mem_map.1 hm
    exact hk e he h1
  front e he := by
    rcases List.mem_cons.1 he with rfl | he
    · exact ⟨rfl, _, mem_upd_self hc, rfl, rfl, fun _ => rfl, fun _ => rfl⟩
    · obtain ⟨h1, b, h2, h3, h4⟩ := h.front e he
      exact ⟨h1, b, mem_upd_of h2 (h3 ▸ hk e he), h3, h4⟩
  clean ht e he := by
    have hcu : c.updated = false := h.clean ht (k, c) (.inr hc)
    rcases he with he | he
    · rcases List.mem_cons.1 he with rfl | he
      · exact hcu
      · exact h.clean ht e (.inl he)
    · rcases mem_upd he with ⟨rfl, -⟩ | ⟨he, -⟩
      · exact hcu
      · exact h.clean ht e (.inr he)
  seen e he x hx hy := by
    by_cases hek : e.1 = k
    · have hxv : x = (k, c.clone) := by
        rcases hy with hy | ⟨-, hy⟩
        · rcases List.mem_cons.1 hy with hy | hy
          · exact hy
          · exact absurd (hx.trans hek) (hk x hy)
        · exact absurd hek.symm (hy (k, c.clone) (by simp))
      subst hxv
      exact h.seen e he (k, c) hx (.inr ⟨hc, fun y hy => hek ▸ hk y hy⟩)
    · rcases hy with hy | ⟨hy1, hy2⟩
      · rcases List.mem_cons.1 hy with rfl | hy
        · exact absurd hx.symm hek
        · exact h.seen e he x hx (.inl hy)
      · rcases mem_upd hy1 with ⟨rfl, -⟩ | ⟨hy1, -⟩
        · exact absurd hx.symm hek
        · exact h.seen e he x hx (.inr ⟨hy1, fun y hy => hy2 y (List.mem_cons_of_mem _ hy)⟩)

/-- The front drops an element that was not written to. -/
theorem Held.drop (h : Held stamp un touch now fr L l) {e : K × InclCell I} {fr' : List (K × InclCell I)}
    (hp : fr.Perm (e :: fr')) (hu : e.2.updated = false) : Held stamp un touch now fr' L l := by
  have hsub : ∀ {x}, x ∈ fr' → x ∈ fr := fun hx => hp.mem_iff.2 (List.mem_cons_of_mem _ hx)
  refine { h with fnodup := ?_, front := fun x hx => h.front x (hsub hx),
                  clean := fun ht x hx => h.clean ht x (hx.imp_left hsub), seen := ?_ }
  · have := (hp.map Prod.fst).nodup_iff.1 h.fnodup
    rw [List.map_cons, List.nodup_cons] at this
    exact this.2
  · intro a ha x hx hy
    rcases hy with hy | ⟨hy1, hy2⟩
    · exact h.seen a ha x hx (.inl (hsub hy))
    · by_cases hk : e.1 = a.1
      · have hef : e ∈ fr := hp.mem_iff.2 (by simp)
        obtain ⟨-, b, h1, h2, -, -, h3⟩ := h.front e hef
        have := same_of_key h.nodup hy1 h1 (hx.trans (hk.symm.trans h2.symm))
        subst this
        rw [← h3 hu]
        exact h.seen a ha e hk (.inl hef)
      · refine h.seen a ha x hx (.inr ⟨hy1, fun y hy => ?_⟩)
        rcases List.mem_cons.1 (hp.mem_iff.1 hy) with rfl | hy
        · exact hk
        · exact hy2 y hy

/-- The front evicts an element, which replaces the one of the back. -/
theorem Held.writeback (h : Held stamp un touch now fr L l) {e : K × InclCell I} {fr' : List (K × InclCell I)}
    (hp : fr.Perm (e :: fr')) (ht : touch = false) : Held stamp un touch now fr' (upd e.1 e.2 L) l := by
  have hsub : ∀ {x}, x ∈ fr' → x ∈ fr := fun hx => hp.mem_iff.2 (List.mem_cons_of_mem _ hx)
  have hef : e ∈ fr := hp.mem_iff.2 (by simp)
  obtain ⟨-, b, h1, h2, h3, h4, -⟩ := h.front e hef
  obtain ⟨bk, b⟩ := b
  replace h2 : bk = e.1 := h2
  subst h2
  have hn := (hp.map Prod.fst).nodup_iff.1 h.fnodup
  rw [List.map_cons, List.nodup_cons] at hn
  have hne : ∀ x ∈ fr', x.1 ≠ e.1 := fun x hx hxe => hn.1 (hxe ▸ List.mem_map_of_mem hx)
  refine ⟨by rw [upd_keys]; exact h.keys, by rw [upd_keys]; exact h.nodup, desc_upd h.nodup h1 (h4 ht) h.desc,
    past_upd h1 (h4 ht) h.past, hn.2, ?_, fun ht' => by simp [ht] at ht', ?_⟩
  · intro x hx
    obtain ⟨g1, d, g2, g3, g4⟩ := h.front x (hsub hx)
    exact ⟨g1, d, mem_upd_of g2 (g3 ▸ hne x hx), g3, g4⟩
  · intro a ha x hx hy
    rcases hy with hy | ⟨hy1, hy2⟩
    · exact h.seen a ha x hx (.inl (hsub hy))
    · rcases mem_upd hy1 with ⟨rfl, -⟩ | ⟨hy1, hk⟩
      · exact h.seen a ha e hx (.inl hef)
      · refine h.seen a ha x hx (.inr ⟨hy1, fun y hy => ?_⟩)
        rcases List.mem_cons.1 (hp.mem_iff.1 hy) with rfl | hy
        · exact fun hya => hk (hx.trans hya.symm)
        · exact hy2 y hy

/-- The user reads or writes the copy in front. -/
theorem Held.access (h : Held stamp un touch now fr L l) {k : K} {c d : InclCell I} {fr' : List (K × InclCell I)}
    {f : V → V} (hp : fr.Perm ((k, c) :: fr')) (hv : un d.value = f (un c.value)) (hcl : d.cloned = c.cloned)
    (hs : touch = false → stamp d.value = stamp c.value) (hu : touch = true → d.updated = false)
    (hw : d.updated = false → c.updated = false ∧ un d.value = un c.value) :
    Held stamp un touch now ((k, d) :: fr') L (upd k (f (un c.value)) l) := by
  have hsub : ∀ {x}, x ∈ fr' → x ∈ fr := fun hx => hp.mem_iff.2 (List.mem_cons_of_mem _ hx)
  have hef : (k, c) ∈ fr := hp.mem_iff.2 (by simp)
  have hn := (hp.map Prod.fst).nodup_iff.1 h.fnodup
  refine ⟨by rw [upd_keys]; exact h.keys, h.nodup, h.desc, h.past, hn, ?_, ?_, ?_⟩
  · intro x hx
    rcases List.mem_cons.1 hx with rfl | hx
    · obtain ⟨g1, b, g2, g3, g4, g5, g6⟩ := h.front _ hef
      exact ⟨hcl.trans g1, b, g2, g3, g4, fun ht => (hs ht).trans (g5 ht), fun hd => (hw hd).2.trans (g6 (hw hd).1)⟩
    · exact h.front x (hsub hx)
  · intro ht x hx
    rcases hx with hx | hx
    · rcases List.mem_cons.1 hx with rfl | hx
      · exact hu ht
      · exact h.clean ht x (.inl (hsub hx))
    · exact h.clean ht x (.inr hx)
  · intro a ha x hx hy
    rw [List.map_cons, List.nodup_cons] at hn
    rcases mem_upd ha with ⟨rfl, -⟩ | ⟨ha, hk⟩
    · have : x = (k, d) := by
        rcases hy with hy | ⟨-, hy⟩
        · rcases List.mem_cons.1 hy with hy | hy
          · exact hy
          · exact absurd (hx ▸ List.mem_map_of_mem hy) hn.1
        · exact absurd rfl (hy (k, d) (by simp))
      subst this
      exact hv
    · rcases hy with hy | ⟨hy1, hy2⟩
      · rcases List.mem_cons.1 hy with rfl | hy
        · exact absurd hx.symm hk
        · exact h.seen a ha x hx (.inl (hsub hy))
      · refine h.seen a ha x hx (.inr ⟨hy1, fun y hy => ?_⟩)
        rcases List.mem_cons.1 (hp.mem_iff.1 hy) with rfl | hy
        · exact fun e => hk e.symm
        · exact hy2 y (List.mem_cons_of_mem _ hy)

/-- A new element enters the back. -/
theorem Held.enter (h : Held stamp un touch now fr L l) {k : K} {i : I} {v : V} {now' : T} (hk : k ∉ l.map Prod.fst)
    (hv : un i = v) (hs : now ≤ stamp i) (hs' : stamp i < now') :
    Held stamp un touch now' fr ((k, InclCell.new i) :: L) ((k, v) :: l) := by
  have hkL : k ∉ L.map Prod.fst := h.keys ▸ hk
  refine ⟨by simp [h.keys], by rw [List.map_cons, List.nodup_cons]; exact ⟨hkL, h.nodup⟩,
    List.pairwise_cons.2 ⟨fun e he => lt_of_lt_of_le (h.past e he) hs, h.desc⟩, ?_, h.fnodup, ?_, ?_, ?_⟩
  · intro e he
    rcases List.mem_cons.1 he with rfl | he
    · exact hs'
    · exact lt_trans (lt_of_lt_of_le (h.past e he) hs) hs'
  · intro e he
    obtain ⟨h1, b, h2, h3⟩ := h.front e he
    exact ⟨h1, b, List.mem_cons_of_mem _ h2, h3⟩
  · intro ht e he
    rcases he with he | he
    · exact h.clean ht e (.inl he)
    · rcases List.mem_cons.1 he with rfl | he
      · rfl
      · exact h.clean ht e (.inr he)
  · intro a ha x hx hy
    rcases List.mem_cons.1 ha with rfl | ha
    · rcases hy with hy | ⟨hy, -⟩
      · obtain ⟨-, b, h2, h3, -⟩ := h.front x hy
        exact absurd (List.mem_map_of_mem (f := Prod.fst) h2) (by rw [h3, hx]; exact hkL)
      · rcases List.mem_cons.1 hy with rfl | hy
        · exact hv
        · exact absurd (List.mem_map_of_mem (f := Prod.fst) hy) (by rw [hx]; exact hkL)
    · rcases hy with hy | ⟨hy, hy2⟩
      · exact h.seen a ha x hx (.inl hy)
      · rcases List.mem_cons.1 hy with rfl | hy
        · exact absurd (List.mem_map_of_mem (f := Prod.fst) ha) (by rw [← hx]; exact hk)
        · exact h.seen a ha x hx (.inr ⟨hy, hy2⟩)

/-- The oldest element leaves both levels. -/
theorem Held.leave {z : K × InclCell I} {w : K × V} {fr' gone : List (K × InclCell I)}
    (h : Held stamp un touch now fr (L ++ [z]) (l ++ [w]))
    (hp : (fr' ++ gone).Perm fr) (hz : ∀ e ∈ fr', e.1 ≠ z.1) (hg : ∀ e ∈ gone, e.1 = z.1) :
    Held stamp un touch now fr' L l := by
  have hkeys := h.keys
  simp only [List.map_append, List.map_cons, List.map_nil] at hkeys
  have hk2 := List.append_inj' hkeys rfl
  have hn := h.nodup
  simp only [List.map_append, List.map_cons, List.map_nil] at hn
  have hn2 := List.nodup_append.1 hn
  have hsub : ∀ {x}, x ∈ fr' → x ∈ fr := fun hx => hp.mem_iff.1 (List.mem_append_left _ hx)
  refine ⟨hk2.1, hn2.1, (List.pairwise_append.1 h.desc).1, fun e he => h.past e (by simp [he]), ?_, ?_, ?_, ?_⟩
  · have := (hp.map Prod.fst).nodup_iff.2 h.fnodup
    rw [List.map_append] at this
    exact (List.nodup_append.1 this).1
  · intro e he
    obtain ⟨h1, b, h2, h3, h4⟩ := h.front e (hsub he)
    refine ⟨h1, b, ?_, h3, h4⟩
    rcases List.mem_append.1 h2 with h2 | h2
    · exact h2
    · rw [List.mem_singleton] at h2
      subst h2
      exact absurd h3.symm (hz e he)
  · intro ht e he
    exact h.clean ht e (he.imp hsub fun he => by simp [he])
  · intro a ha x hx hy
    have haz : a.1 ≠ z.1 := by
      have : a.1 ∈ L.map Prod.fst := hk2.1 ▸ List.mem_map_of_mem ha
      exact hn2.2.2 _ this z.1 (by simp)
    refine h.seen a (by simp [ha]) x hx (hy.imp hsub fun ⟨h1, h2⟩ => ⟨by simp [h1], fun y hy => ?_⟩)
    rcases List.mem_append.1 (hp.mem_iff.2 hy) with hy | hy
    · exact h2 y hy
    · rw [hg y hy]; exact haz.symm

end Byoc.InclCache
