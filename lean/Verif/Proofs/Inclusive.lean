import Verif.Model.Inclusive
import Verif.Proofs.Lookup
import Verif.Proofs.Get

/-! # `Inclusive` whose front never evicts obeys the contract of containers of distinct keys -/

namespace Byoc

variable {K V : Type} [DecidableEq K]

namespace Inclusive

/-- The levels agree: a key has a cell in front exactly when its cell in the back is flagged as
copied, and the two have the same value unless the front one is flagged as written to. -/
structure Consistent (fr bk : List (K × InclCell V)) : Prop where
  nf : (fr.map Prod.fst).Nodup
  nb : (bk.map Prod.fst).Nodup
  copy : ∀ k c, lk fr k = some c → c.cloned = true ∧
    ∃ c', lk bk k = some c' ∧ c'.cloned = true ∧ (c.updated = false → c'.value = c.value)
  copied : ∀ k c', lk bk k = some c' → c'.cloned = true → ∃ c, lk fr k = some c

/-- What the user sees: the elements of the back, with the value of the front when there is one. -/
def vis (fr bk : List (K × InclCell V)) : List (K × V) :=
  bk.map fun e => (e.1, ((lk fr e.1).getD e.2).value)

theorem lk_vis (fr bk : List (K × InclCell V)) (k : K) :
    lk (vis fr bk) k = (lk bk k).map fun c => ((lk fr k).getD c).value :=
  lk_map (fun k c => ((lk fr k).getD c).value) bk k

theorem keys_vis (fr bk : List (K × InclCell V)) : (vis fr bk).map Prod.fst = bk.map Prod.fst :=
  keys_map (fun k c => ((lk fr k).getD c).value) bk

theorem hasKey_vis {fr bk : List (K × InclCell V)} {k : K} :
    HasKey (vis fr bk) k ↔ HasKey bk k := by
  rw [hasKey_iff_mem_map, keys_vis, hasKey_iff_mem_map]

theorem vis_append (fr a b : List (K × InclCell V)) : vis fr (a ++ b) = vis fr a ++ vis fr b := by
  simp [vis]

theorem vis_perm (fr : List (K × InclCell V)) {a b : List (K × InclCell V)} (h : a.Perm b) :
    (vis fr a).Perm (vis fr b) := h.map _

theorem vis_congr {fr fr' bk : List (K × InclCell V)} (h : ∀ k, HasKey bk k → lk fr k = lk fr' k) :
    vis fr bk = vis fr' bk := by
  apply List.map_congr_left
  rintro ⟨k, c⟩ he
  simp only [h k ⟨c, he⟩]

theorem mem_clonedKeys {l : List (K × InclCell V)} (hn : (l.map Prod.fst).Nodup) {k : K} :
    k ∈ clonedKeys l ↔ ∃ c, lk l k = some c ∧ c.cloned = true := by
  simp only [clonedKeys, List.mem_filterMap, Option.ite_none_right_eq_some, Option.some.injEq]
  constructor
  · rintro ⟨⟨k', c⟩, h1, h2, rfl⟩
    exact ⟨c, lk_of_mem hn h1, h2⟩
  · rintro ⟨c, h1, h2⟩
    exact ⟨(k, c), mem_of_lk h1, h2, rfl⟩

omit [DecidableEq K] in
theorem clonedKeys_cons (e : K × InclCell V) (l : List (K × InclCell V)) :
    clonedKeys (e :: l) = if e.2.cloned = true then e.1 :: clonedKeys l else clonedKeys l := by
  unfold clonedKeys
  rw [List.filterMap_cons]
  split <;> rename_i h
  · split at h <;> simp_all
  · split at h <;> simp_all

theorem lk_unwrap (l : List (K × InclCell V)) (k : K) :
    lk (l.map unwrap) k = (lk l k).map InclCell.value :=
  lk_map (fun _ c => c.value) l k

/-- Removing elements from the back, and from the front those flagged as copied. -/
theorem Consistent.remove {fr bk frest rest out : List (K × InclCell V)} (h : Consistent fr bk)
    (hp : (rest ++ out).Perm bk) (hnf : (frest.map Prod.fst).Nodup)
    (hf : ∀ k, lk frest k = if k ∈ clonedKeys out then none else lk fr k) :
    Consistent frest rest ∧ (vis frest rest ++ vis fr out).Perm (vis fr bk) := by
  obtain ⟨n1, n2, hl⟩ := lk_split hp h.nb
  refine ⟨⟨hnf, n1, ?_, ?_⟩, ?_⟩
  · intro k c hk
    rw [hf] at hk
    split at hk
    · simp at hk
    · rename_i hnk
      obtain ⟨h1, c', h2, h3, h4⟩ := h.copy k c hk
      refine ⟨h1, c', ?_, h3, h4⟩
      rcases (hl k).2 with hr | ho
      · rw [(hl k).1, hr, Option.none_or] at h2
        exact absurd ((mem_clonedKeys n2).2 ⟨c', h2, h3⟩) hnk
      · rw [(hl k).1, ho, Option.or_none] at h2
        exact h2
  · intro k c' hk hc
    have ho : lk out k = none := by
      rcases (hl k).2 with hr | ho
      · rw [hr] at hk; simp at hk
      · exact ho
    have hb : lk bk k = some c' := by rw [(hl k).1, hk]; rfl
    obtain ⟨c, hc'⟩ := h.copied k c' hb hc
    refine ⟨c, ?_⟩
    rw [hf, if_neg, hc']
    rw [mem_clonedKeys n2, ho]
    simp
  · refine List.Perm.trans ?_ (vis_perm fr hp)
    rw [vis_append, vis_congr (fr := frest) (fr' := fr)]
    rintro k hk
    rw [hf, if_neg]
    rw [mem_clonedKeys n2]
    rintro ⟨c, hc, -⟩
    rw [hasKey_iff_lk] at hk
    obtain ⟨c', hc'⟩ := hk
    rcases (hl k).2 with hr | ho
    · rw [hr] at hc'; simp at hc'
    · rw [ho] at hc; simp at hc

/-- What is handed back for elements removed from the back, when their copies are taken together. -/
theorem vis_out {fr bk rest out fout frest : List (K × InclCell V)} (h : Consistent fr bk)
    (hp : (rest ++ out).Perm bk) (hpf : (frest ++ fout).Perm fr)
    (hf : ∀ k, lk fout k = if k ∈ clonedKeys out then lk fr k else none) :
    (((out.filter fun e => !e.2.cloned) ++ fout).map unwrap).Perm (vis fr out) := by
  obtain ⟨n1, n2, hl⟩ := lk_split hp h.nb
  obtain ⟨-, m2, -⟩ := lk_split hpf h.nf
  have hkeys : (((out.filter fun e => !e.2.cloned) ++ fout).map unwrap).map Prod.fst =
      (out.filter fun e => !e.2.cloned).map Prod.fst ++ fout.map Prod.fst := by
    simp [unwrap, Function.comp_def]
  have hnd : ((out.filter fun e => !e.2.cloned).map Prod.fst ++ fout.map Prod.fst).Nodup := by
    rw [List.nodup_append]
    refine ⟨(List.filter_sublist.map _).nodup n2, m2, ?_⟩
    rintro k hk _ hk' rfl
    rw [← hasKey_iff_mem_map, hasKey_iff_lk] at hk hk'
    obtain ⟨c, hc⟩ := hk
    obtain ⟨c', hc'⟩ := hk'
    rw [lk_filter n2, Option.filter_eq_some_iff] at hc
    rw [hf] at hc'
    split at hc'
    · rename_i hm
      rw [mem_clonedKeys n2, hc.1] at hm
      obtain ⟨x, hx, hx'⟩ := hm
      cases hx
      simp [hx'] at hc
    · simp at hc'
  refine perm_of_lk (by rw [hkeys]; exact hnd) (by rw [keys_vis]; exact n2) ?_
  intro k
  rw [lk_unwrap, lk_vis, lk_append, lk_filter n2, hf]
  cases ho : lk out k with
  | none =>
    have : k ∉ clonedKeys out := by rw [mem_clonedKeys n2, ho]; simp
    simp [this]
  | some c =>
    have hb : lk bk k = some c := by
      rw [(hl k).1]
      rcases (hl k).2 with hr | ho'
      · rw [hr, ho]; rfl
      · rw [ho] at ho'; simp at ho'
    by_cases hc : c.cloned = true
    · have : k ∈ clonedKeys out := (mem_clonedKeys n2).2 ⟨c, ho, hc⟩
      obtain ⟨x, hx⟩ := h.copied k c hb hc
      simp [Option.filter, hc, this, hx]
    · have : k ∉ clonedKeys out := by
        rw [mem_clonedKeys n2, ho]
        rintro ⟨x, hx, hx'⟩
        cases hx; exact hc hx'
      have hfr : lk fr k = none := by
        cases hfk : lk fr k with
        | none => rfl
        | some y =>
          obtain ⟨-, c', h2, h3, -⟩ := h.copy k y hfk
          rw [hb] at h2; cases h2
          exact absurd h3 hc
      simp [Option.filter, hc, this, hfr]

/-- New cells in the back. -/
theorem Consistent.add {fr bk new : List (K × InclCell V)} (h : Consistent fr bk)
    (hn : ((bk ++ new).map Prod.fst).Nodup) (hc : ∀ e ∈ new, e.2.cloned = false) :
    Consistent fr (bk ++ new) := by
  refine ⟨h.nf, hn, ?_, ?_⟩
  · intro k c hk
    obtain ⟨h1, c', h2, h3⟩ := h.copy k c hk
    exact ⟨h1, c', by rw [lk_append, h2]; rfl, h3⟩
  · intro k c' hk hcl
    rw [lk_append] at hk
    cases hb : lk bk k with
    | some c =>
      rw [hb] at hk
      simp only [Option.some_or, Option.some.injEq] at hk
      subst hk
      exact h.copied k c hb hcl
    | none =>
      rw [hb, Option.none_or] at hk
      have := hc _ (mem_of_lk hk)
      simp only at this
      rw [this] at hcl
      cases hcl

/-- The loop of `pop`. -/
theorem popLoop_spec {F : Block K (InclCell V)} {If ef} {Pre : List (K × InclCell V) → Prop}
    (hF : Core F If ef Pre) :
    ∀ (out : List (K × InclCell V)) (f : F.State), If f → (out.map Prod.fst).Nodup →
      ((ef f).map Prod.fst).Nodup →
      (∀ e ∈ out, e.2.cloned = true ↔ HasKey (ef f) e.1) →
      ∃ f', popLoop F f out = .ok (vis (ef f) out, f') ∧ If f' ∧ F.capacity f' = F.capacity f ∧
        ((ef f').map Prod.fst).Nodup ∧
        ∀ k, lk (ef f') k = if k ∈ clonedKeys out then none else lk (ef f) k := by
  intro out
  induction out with
  | nil => intro f hf _ hn _; exact ⟨f, rfl, hf, rfl, hn, by simp [clonedKeys]⟩
  | cons e out ih =>
    intro f hf hn hnf hcl
    obtain ⟨k, c⟩ := e
    simp only [List.map_cons, List.nodup_cons] at hn
    have hke : ∀ e ∈ out, e.1 ≠ k := fun e he hk => hn.1 (List.mem_map.2 ⟨e, he, hk⟩)
    by_cases hc : c.cloned = true
    · obtain ⟨o, f1, h1, h2, h3, h4⟩ := hF.take f k hf
      cases o with
      | none => exact absurd ((hcl (k, c) (by simp)).1 hc) h4.1
      | some x =>
        obtain ⟨hx, hp⟩ := h4
        obtain ⟨k', cx⟩ := x
        simp only at hx
        subst hx
        have hnd := (hp.map Prod.fst).nodup_iff.2 hnf
        have hlk := fun k => lk_perm hp hnd k
        simp only [List.map_cons, List.nodup_cons] at hnd
        have hlk' : ∀ k, lk (ef f1) k = if k = k' then none else lk (ef f) k := by
          intro k
          rw [← hlk, lk_cons]
          simp only
          by_cases hk : k = k'
          · subst hk
            rw [if_pos rfl, lk_none_iff, hasKey_iff_mem_map]
            exact hnd.1
          · rw [if_neg hk, if_neg (Ne.symm hk)]
        have hlkx : lk (ef f) k' = some cx := by rw [← hlk, lk_cons]; simp
        obtain ⟨f', g1, g2, g3, g4, g5⟩ := ih f1 h2 hn.2 hnd.2 (by
          intro e he
          rw [hcl e (by simp [he]), hasKey_iff_lk, hasKey_iff_lk, hlk', if_neg (hke e he)])
        refine ⟨f', ?_, g2, g3.trans h3, g4, ?_⟩
        · have hv : vis (ef f1) out = vis (ef f) out := by
            apply vis_congr
            rintro j ⟨y, hy⟩
            rw [hlk', if_neg (hke _ hy)]
          rw [hv] at g1
          simp only [popLoop, hc, if_true, h1, Res.ok_bind, Res.unwrap_some, g1, Res.pure_eq, vis,
            List.map_cons, unwrap, hlkx, Option.getD_some]
        · intro j
          rw [g5, hlk']
          rw [clonedKeys_cons, if_pos hc]
          by_cases hj : j = k'
          · subst hj; simp
          · by_cases hm : j ∈ clonedKeys out
            · rw [if_pos hm, if_pos (List.mem_cons_of_mem _ hm)]
            · rw [if_neg hm, if_neg hj, if_neg]
              intro hh
              rcases List.mem_cons.1 hh with hh | hh
              · exact hj hh
              · exact hm hh
    · have hk : lk (ef f) k = none := by
        rw [lk_none_iff, ← hcl (k, c) (by simp)]; exact hc
      obtain ⟨f', g1, g2, g3, g4, g5⟩ := ih f hf hn.2 hnf (fun e he => hcl e (by simp [he]))
      refine ⟨f', ?_, g2, g3, g4, ?_⟩
      · simp only [popLoop, hc, g1, Res.ok_bind, Res.pure_eq, vis, List.map_cons, unwrap, hk,
          Option.getD_none]
        simp
      · intro j
        rw [g5]
        rw [clonedKeys_cons, if_neg hc]


/-- Making a copy of a back cell in front. -/
theorem Consistent.clone {fr bk fr' bk' rest : List (K × InclCell V)} {k : K} {c : InclCell V}
    (h : Consistent fr bk) (hk : ¬ HasKey fr k) (h1 : bk.Perm ((k, c) :: rest))
    (h2 : bk'.Perm ((k, c.clone) :: rest)) (h3 : fr'.Perm (fr ++ [(k, c.clone)])) :
    Consistent fr' bk' ∧ (vis fr' bk').Perm (vis fr bk) ∧ lk fr' k = some c.clone := by
  have nbk := (h1.map Prod.fst).nodup_iff.1 h.nb
  have nbk' : (bk'.map Prod.fst).Nodup := (h2.map Prod.fst).nodup_iff.2 (by simpa using nbk)
  have nfr' : ((fr ++ [(k, c.clone)]).map Prod.fst).Nodup := by
    rw [List.map_append, List.nodup_append]
    refine ⟨h.nf, by simp, ?_⟩
    intro a ha b hb
    simp only [List.map_cons, List.map_nil, List.mem_singleton] at hb
    subst hb
    rintro rfl
    exact hk (hasKey_iff_mem_map.2 ha)
  have nfr := (h3.map Prod.fst).nodup_iff.2 nfr'
  have lfr : ∀ j, lk fr' j = if j = k then some c.clone else lk fr j := by
    intro j
    rw [lk_perm h3 nfr, lk_append, lk_cons]
    by_cases hj : j = k
    · subst hj; simp [lk_none_iff.2 hk]
    · simp [hj, Ne.symm hj]
  have lbk : ∀ j, lk bk j = if j = k then some c else lk rest j := by
    intro j
    rw [lk_perm h1 h.nb, lk_cons]
    by_cases hj : j = k
    · subst hj; simp
    · simp [hj, Ne.symm hj]
  have lbk' : ∀ j, lk bk' j = if j = k then some c.clone else lk rest j := by
    intro j
    rw [lk_perm h2 nbk', lk_cons]
    by_cases hj : j = k
    · subst hj; simp
    · simp [hj, Ne.symm hj]
  refine ⟨⟨nfr, nbk', ?_, ?_⟩, ?_, by rw [lfr, if_pos rfl]⟩
  · intro j d hj
    rw [lfr] at hj
    split at hj
    · rename_i hjk
      cases hj
      exact ⟨rfl, c.clone, by rw [lbk', if_pos hjk], rfl, fun _ => rfl⟩
    · rename_i hjk
      obtain ⟨a1, c', a2, a3⟩ := h.copy j d hj
      rw [lbk, if_neg hjk] at a2
      exact ⟨a1, c', by rw [lbk', if_neg hjk, a2], a3⟩
  · intro j d hj hd
    rw [lbk'] at hj
    split at hj
    · rename_i hjk
      exact ⟨c.clone, by rw [lfr, if_pos hjk]⟩
    · rename_i hjk
      obtain ⟨x, hx⟩ := h.copied j d (by rw [lbk, if_neg hjk, hj]) hd
      exact ⟨x, by rw [lfr, if_neg hjk, hx]⟩
  · refine perm_of_lk (by rw [keys_vis]; exact nbk') (by rw [keys_vis]; exact h.nb) ?_
    intro j
    rw [lk_vis, lk_vis, lfr, lbk, lbk']
    by_cases hj : j = k
    · subst hj
      simp [lk_none_iff.2 hk, InclCell.clone]
    · simp [hj]

/-- Accessing the copy in front. -/
theorem Consistent.access {fr fr' bk rest : List (K × InclCell V)} {k : K} {c d : InclCell V}
    (h : Consistent fr bk) (h1 : fr.Perm ((k, c) :: rest)) (h2 : fr'.Perm ((k, d) :: rest))
    (hd : d.cloned = true) (hu : d.updated = true ∨ (d.value = c.value ∧ d.updated = c.updated)) :
    Consistent fr' bk ∧ ∃ others, (vis fr bk).Perm ((k, c.value) :: others) ∧
      (vis fr' bk).Perm ((k, d.value) :: others) := by
  have nfr := (h1.map Prod.fst).nodup_iff.1 h.nf
  have nfr' : (fr'.map Prod.fst).Nodup := (h2.map Prod.fst).nodup_iff.2 (by simpa using nfr)
  have lfr : ∀ j, lk fr j = if j = k then some c else lk rest j := by
    intro j
    rw [lk_perm h1 h.nf, lk_cons]
    by_cases hj : j = k
    · subst hj; simp
    · simp [hj, Ne.symm hj]
  have lfr' : ∀ j, lk fr' j = if j = k then some d else lk rest j := by
    intro j
    rw [lk_perm h2 nfr', lk_cons]
    by_cases hj : j = k
    · subst hj; simp
    · simp [hj, Ne.symm hj]
  obtain ⟨hc, cb, hcb, hcb2, hval⟩ := h.copy k c (by rw [lfr, if_pos rfl])
  refine ⟨⟨nfr', h.nb, ?_, ?_⟩, ?_⟩
  · intro j x hj
    rw [lfr'] at hj
    split at hj
    · rename_i hjk
      cases hj
      subst hjk
      refine ⟨hd, cb, hcb, hcb2, ?_⟩
      intro hx
      rcases hu with hu | hu
      · rw [hu] at hx; cases hx
      · rw [hval (by rw [← hu.2]; exact hx), hu.1]
    · rename_i hjk
      exact h.copy j x (by rw [lfr, if_neg hjk, hj])
  · intro j x hj hx
    obtain ⟨y, hy⟩ := h.copied j x hj hx
    rw [lfr] at hy
    by_cases hjk : j = k
    · exact ⟨d, by rw [lfr', if_pos hjk]⟩
    · rw [if_neg hjk] at hy
      exact ⟨y, by rw [lfr', if_neg hjk, hy]⟩
  · obtain ⟨r, hr⟩ : ∃ r, bk.Perm ((k, cb) :: r) := by
      obtain ⟨a, b, hab⟩ := List.append_of_mem (mem_of_lk hcb)
      exact ⟨a ++ b, by rw [hab]; exact List.perm_middle⟩
    have hnr := (hr.map Prod.fst).nodup_iff.1 h.nb
    simp only [List.map_cons, List.nodup_cons] at hnr
    refine ⟨vis rest r, ?_, ?_⟩
    · refine (vis_perm fr hr).trans ?_
      have : vis fr r = vis rest r := by
        apply vis_congr
        intro j hj
        rw [lfr, if_neg]
        rintro rfl
        exact hnr.1 (hasKey_iff_mem_map.1 hj)
      rw [← this]
      simp [vis, lfr]
    · refine (vis_perm fr' hr).trans ?_
      have : vis fr' r = vis rest r := by
        apply vis_congr
        intro j hj
        rw [lfr', if_neg]
        rintro rfl
        exact hnr.1 (hasKey_iff_mem_map.1 hj)
      rw [← this]
      simp [vis, lfr']

/-- The front has at most as many elements as the back, strictly less if a key is only in the back. -/
theorem Consistent.length {fr bk : List (K × InclCell V)} (h : Consistent fr bk) {k : K}
    (hf : ¬ HasKey fr k) (hb : HasKey bk k) : fr.length < bk.length := by
  have hs : (k :: fr.map Prod.fst).Subperm (bk.map Prod.fst) := by
    apply List.subperm_of_subset
    · rw [List.nodup_cons]
      exact ⟨fun hh => hf (hasKey_iff_mem_map.2 hh), h.nf⟩
    · intro j hj
      rcases List.mem_cons.1 hj with rfl | hj
      · exact hasKey_iff_mem_map.1 hb
      · rw [← hasKey_iff_mem_map, hasKey_iff_lk] at hj
        obtain ⟨c, hc⟩ := hj
        obtain ⟨-, c', h2, -⟩ := h.copy j c hc
        exact hasKey_iff_mem_map.1 (hasKey_iff_lk.2 ⟨c', h2⟩)
  have := hs.length_le
  simp only [List.length_cons, List.length_map] at this
  omega

section
variable {F B : Block K (InclCell V)} {GF : GetOps F} {GB : GetOps B}
  {If : F.State → Prop} {Ib : B.State → Prop}
  {ef : F.State → List (K × InclCell V)} {eb : B.State → List (K × InclCell V)}

/-- An access, when the front has room for a copy if one has to be made. -/
theorem access_spec (hF : Lawful F If ef fun _ => True) (sF : Slots F If ef)
    (gB : GetLawful B GB Ib eb fun _ => True)
    {op : F.State → K → (InclCell V → InclCell V) → Res (Option (InclCell V) × F.State)}
    (hop : AccessLaw F op If ef fun _ => True)
    (s : F.State × B.State) (k : K) (g : InclCell V → InclCell V) (f : V → V)
    (hI : If s.1 ∧ Ib s.2 ∧ Consistent (ef s.1) (eb s.2))
    (hroom : ¬ HasKey (ef s.1) k → HasKey (eb s.2) k → F.size s.1 < F.capacity s.1)
    (hg : ∀ c, (g c).value = f c.value) (hgc : ∀ c, (g c).cloned = c.cloned)
    (hgu : ∀ c, c.cloned = true →
      (g c).updated = true ∨ ((g c).value = c.value ∧ (g c).updated = c.updated)) :
    ∃ o s', inclusiveAccess F B GB op s k g = .ok (o, s') ∧
      (If s'.1 ∧ Ib s'.2 ∧ Consistent (ef s'.1) (eb s'.2)) ∧
      F.capacity s'.1 = F.capacity s.1 ∧ B.capacity s'.2 = B.capacity s.2 ∧
      match o with
      | none => ¬ HasKey (vis (ef s.1) (eb s.2)) k ∧
          (vis (ef s'.1) (eb s'.2)).Perm (vis (ef s.1) (eb s.2))
      | some v => ∃ rest, (vis (ef s.1) (eb s.2)).Perm ((k, v) :: rest) ∧
          (vis (ef s'.1) (eb s'.2)).Perm ((k, f v) :: rest) := by
  -- access of a key present in front
  have front : ∀ (f1 : F.State) (b1 : B.State), If f1 → Ib b1 → Consistent (ef f1) (eb b1) →
      HasKey (ef f1) k → ∃ o f2, op f1 k g = .ok (o, f2) ∧ If f2 ∧ Consistent (ef f2) (eb b1) ∧
        F.capacity f2 = F.capacity f1 ∧ ∃ c, o = some c ∧
        ∃ rest, (vis (ef f1) (eb b1)).Perm ((k, c.value) :: rest) ∧
          (vis (ef f2) (eb b1)).Perm ((k, f c.value) :: rest) := by
    intro f1 b1 i1 i2 i3 hk
    obtain ⟨o, f2, h1, h2, h3, h4⟩ := hop f1 k g i1 trivial
    cases o with
    | none => exact absurd hk h4.1
    | some c =>
      obtain ⟨r, p1, p2⟩ := h4
      have hlk : lk (ef f1) k = some c := by rw [lk_perm p1 i3.nf, lk_cons]; simp
      obtain ⟨hc, -⟩ := i3.copy k c hlk
      obtain ⟨q1, others, q2, q3⟩ := i3.access p1 p2 (by rw [hgc, hc]) (hgu c hc)
      rw [hg] at q3
      exact ⟨some c, f2, h1, h2, q1, h3, c, rfl, others, q2, q3⟩
  obtain ⟨i1, i2, i3⟩ := hI
  obtain ⟨b, f1, h1, h2, h3, h3', h4, h5⟩ := hF.contains s.1 k i1
  rw [← h4] at i3
  by_cases hb : b = true
  · have hk := h5.1 hb
    rw [← h4] at hk
    obtain ⟨o, f2, g1, g2, g3, g4, c, rfl, rest, g5, g6⟩ := front f1 s.2 h2 i2 i3 hk
    refine ⟨some c.value, (f2, s.2), ?_, ⟨g2, i2, g3⟩, g4.trans h3, rfl, rest, ?_, g6⟩
    · simp only [inclusiveAccess, h1, Res.ok_bind, hb, if_true, Res.pure_eq, g1]; rfl
    · rw [← h4]; exact g5
  · have hk : ¬ HasKey (ef s.1) k := fun h => hb (h5.2 h)
    have hk1 : ¬ HasKey (ef f1) k := by rw [h4]; exact hk
    obtain ⟨o, b1, a1, a2, a3, a4⟩ := gB.get s.2 k InclCell.clone i2 trivial
    cases o with
    | none =>
      refine ⟨none, (f1, b1), ?_, ⟨h2, a2, ?_⟩, h3, a3, ?_⟩
      · simp only [inclusiveAccess, h1, Res.ok_bind, hb, inclusiveDowngrade, a1]; rfl
      · obtain ⟨q1, q2⟩ := i3.remove (rest := eb b1) (out := []) (frest := ef f1)
          (by simpa using a4.2) i3.nf (by simp [clonedKeys])
        exact q1
      · refine ⟨by rw [hasKey_vis]; exact a4.1, ?_⟩
        rw [h4]
        exact vis_perm _ a4.2
    | some c =>
      obtain ⟨r, p1, p2⟩ := a4
      have hbk : HasKey (eb s.2) k := hasKey_of_perm_cons p1
      have hroom' := hroom hk hbk
      obtain ⟨out, f2, u1, u2, u3, u4⟩ := hF.push f1 [(k, c.clone)] h2 trivial
      have hlen := sF.pushExact f1 _ _ _ h2 u1
      have hout : out = [] := by
        rw [h3', h3] at hlen
        simp only [List.length_cons, List.length_nil] at hlen
        exact List.eq_nil_of_length_eq_zero (by omega)
      subst hout
      rw [List.append_nil] at u4
      obtain ⟨q1, q2, q3⟩ := i3.clone hk1 p1 p2 u4
      obtain ⟨o, f3, g1, g2, g3, g4, d, rfl, rest, g5, g6⟩ :=
        front f2 b1 u2 a2 q1 (hasKey_iff_lk.2 ⟨_, q3⟩)
      refine ⟨some d.value, (f3, b1), ?_, ⟨g2, a2, g3⟩, g4.trans (u3.trans h3), a3, rest, ?_, g6⟩
      · simp only [inclusiveAccess, h1, Res.ok_bind, hb, inclusiveDowngrade, a1, u1, Res.pure_eq,
          List.filter_nil, if_true, g1]
        rfl
      · rw [← h4]
        exact q2.symm.trans g5

/-- Everything but the accesses. -/
theorem take_spec (hF : Lawful F If ef fun _ => True) (hB : Lawful B Ib eb fun _ => True)
    (s : F.State × B.State) (k : K)
    (hI : If s.1 ∧ Ib s.2 ∧ Consistent (ef s.1) (eb s.2)) :
    ∃ o s', (inclusive F B).take s k = .ok (o, s') ∧
      (If s'.1 ∧ Ib s'.2 ∧ Consistent (ef s'.1) (eb s'.2)) ∧
      F.capacity s'.1 = F.capacity s.1 ∧ B.capacity s'.2 = B.capacity s.2 ∧
      match o with
      | none => ¬ HasKey (vis (ef s.1) (eb s.2)) k ∧
          (vis (ef s'.1) (eb s'.2)).Perm (vis (ef s.1) (eb s.2))
      | some e => e.1 = k ∧ (e :: vis (ef s'.1) (eb s'.2)).Perm (vis (ef s.1) (eb s.2)) := by
  obtain ⟨i1, i2, i3⟩ := hI
  obtain ⟨o, b1, h1, h2, h3, h4⟩ := hB.take s.2 k i2
  cases o with
  | none =>
    refine ⟨none, (s.1, b1), by simp only [inclusive, h1, Res.ok_bind]; rfl, ⟨i1, h2, ?_⟩, rfl, h3,
      by rw [hasKey_vis]; exact h4.1, vis_perm _ h4.2⟩
    exact (i3.remove (rest := eb b1) (out := []) (by simpa using h4.2) i3.nf
      (by simp [clonedKeys])).1
  | some e =>
    obtain ⟨k', c⟩ := e
    obtain ⟨hk, hp⟩ := h4
    simp only at hk
    subst hk
    have hp' : (eb b1 ++ [(k', c)]).Perm (eb s.2) := by perms [hp]
    have hlk : lk (eb s.2) k' = some c :=
      lk_of_mem i3.nb (hp.subset (by simp))
    by_cases hc : c.cloned = true
    · obtain ⟨o, f1, g1, g2, g3, g4⟩ := hF.take s.1 k' i1
      obtain ⟨x, hx⟩ := i3.copied k' c hlk hc
      cases o with
      | none => exact absurd (hasKey_iff_lk.2 ⟨x, hx⟩) g4.1
      | some y =>
        obtain ⟨ky, d⟩ := y
        obtain ⟨hky, hpf⟩ := g4
        simp only at hky
        subst hky
        have hd : lk (ef s.1) ky = some d := lk_of_mem i3.nf (hpf.subset (by simp))
        have hnd := (hpf.map Prod.fst).nodup_iff.2 i3.nf
        have hlkf : ∀ j, lk (ef f1) j = if j ∈ clonedKeys [(ky, c)] then none else lk (ef s.1) j := by
          intro j
          rw [clonedKeys_cons, if_pos hc, ← lk_perm hpf hnd, lk_cons]
          simp only [List.map_cons, List.nodup_cons] at hnd
          by_cases hj : j = ky
          · subst hj
            rw [if_pos (by simp), lk_none_iff, hasKey_iff_mem_map]
            exact hnd.1
          · rw [if_neg (by simpa [clonedKeys] using hj), if_neg (Ne.symm hj)]
        simp only [List.map_cons, List.nodup_cons] at hnd
        obtain ⟨q1, q2⟩ := i3.remove hp' hnd.2 hlkf
        refine ⟨some (ky, d.value), (f1, b1), ?_, ⟨g2, h2, q1⟩, g3, h3, rfl, ?_⟩
        · simp only [inclusive, h1, Res.ok_bind, hc, if_true, g1, Res.unwrap_some]; rfl
        · simp only [vis, List.map_cons, List.map_nil, hd, Option.getD_some] at q2 ⊢
          perms [q2]
    · have hnone : lk (ef s.1) k' = none := by
        cases hf : lk (ef s.1) k' with
        | none => rfl
        | some y =>
          obtain ⟨-, c', a2, a3, -⟩ := i3.copy k' y hf
          rw [hlk] at a2; cases a2
          exact absurd a3 hc
      obtain ⟨q1, q2⟩ := i3.remove hp' i3.nf (by
        intro j; rw [clonedKeys_cons, if_neg hc]; simp [clonedKeys])
      refine ⟨some (k', c.value), (s.1, b1), ?_, ⟨i1, h2, q1⟩, rfl, h3, rfl, ?_⟩
      · simp only [inclusive, h1, Res.ok_bind, hc]; rfl
      · simp only [vis, List.map_cons, List.map_nil, hnone, Option.getD_none] at q2 ⊢
        perms [q2]

/-- Taking from the front the copies of what left the back. -/
theorem front_take (hF : Lawful F If ef fun _ => True) (f : F.State) (bk rest out : List (K × InclCell V))
    (hf : If f) (h : Consistent (ef f) bk) (hp : (rest ++ out).Perm bk) :
    ∃ fout ks' f', F.takeMultiple f (clonedKeys out) = .ok (fout, ks', f') ∧ If f' ∧
      F.capacity f' = F.capacity f ∧ Consistent (ef f') rest ∧
      (vis (ef f') rest ++ ((out.filter fun e => !e.2.cloned) ++ fout).map unwrap).Perm
        (vis (ef f) bk) ∧
      (((out.filter fun e => !e.2.cloned) ++ fout).map unwrap).Perm (vis (ef f) out) := by
  obtain ⟨fout, ks', f', h1, h2, h3, h4, h5, h6, -⟩ := hF.takeMultiple f (clonedKeys out) hf
  have hl := lk_taken h.nf h4 h5 h6
  obtain ⟨q1, q2⟩ := h.remove hp (lk_split h4 h.nf).1 (fun k => (hl k).2)
  have q3 := vis_out h hp h4 (fun k => (hl k).1)
  exact ⟨fout, ks', f', h1, h2, h3, q1, (q3.append_left _).trans q2, q3⟩

/-- **Contract.** -/
theorem mapLawful (hF : Lawful F If ef fun _ => True) (gF : GetLawful F GF If ef fun _ => True)
    (sF : Slots F If ef) (fF : Flushes F If ef)
    (hB : Lawful B Ib eb fun _ => True) (gB : GetLawful B GB Ib eb fun _ => True)
    (sB : Slots B Ib eb) (fB : Flushes B Ib eb) :
    MapLawful (inclusive F B) (inclusiveGet GF GB)
      (fun s => (If s.1 ∧ Ib s.2 ∧ Consistent (ef s.1) (eb s.2)) ∧ B.capacity s.2 ≤ F.capacity s.1)
      (fun s => vis (ef s.1) (eb s.2)) (fun f => f = id) (fun _ => True) where
  bounded s hs := hB.bounded s.2 hs.1.2.1
  empty_size s hs he := by
    apply hB.empty_size s.2 hs.1.2.1
    simpa [vis] using he
  contains s k hs := by
    obtain ⟨⟨i1, i2, i3⟩, hcap⟩ := hs
    obtain ⟨b, f1, h1, h2, h3, h3', h4, h5⟩ := hF.contains s.1 k i1
    by_cases hb : b = true
    · refine ⟨true, (f1, s.2), ?_, ⟨⟨h2, i2, by rw [h4]; exact i3⟩, by simp only [h3]; exact hcap⟩,
        rfl, rfl, by simp only [h4], ?_⟩
      · simp only [inclusive, h1, Res.ok_bind, hb, if_true]; rfl
      · rw [hasKey_vis]
        have := h5.1 hb
        rw [hasKey_iff_lk] at this
        obtain ⟨c, hc⟩ := this
        obtain ⟨-, c', h2, -⟩ := i3.copy k c hc
        simpa using hasKey_iff_lk.2 ⟨c', h2⟩
    · obtain ⟨b', b1, g1, g2, g3, g3', g4, g5⟩ := hB.contains s.2 k i2
      refine ⟨b', (f1, b1), ?_, ⟨⟨h2, g2, by rw [h4, g4]; exact i3⟩,
        by simp only [h3, g3]; exact hcap⟩, g3, g3', by simp only [h4, g4], ?_⟩
      · simp only [inclusive, h1, Res.ok_bind, hb, g1]; rfl
      · rw [hasKey_vis]; exact g5
  take s k hs := by
    obtain ⟨o, s', h1, h2, h3, h4, h5⟩ := take_spec hF hB s k hs.1
    exact ⟨o, s', h1, ⟨h2, by rw [h3, h4]; exact hs.2⟩, h4, h5⟩
  takeMultiple s ks hs := by
    obtain ⟨⟨i1, i2, i3⟩, hcap⟩ := hs
    obtain ⟨out, ks', b1, h1, h2, h3, h4, h5, h6, h7, h8⟩ := hB.takeMultiple s.2 ks i2
    obtain ⟨fout, fks, f1, g1, g2, g3, g4, g5, g6⟩ := front_take hF s.1 (eb s.2) (eb b1) out i1 i3 h4
    have hkeys : ∀ k, HasKey (((out.filter fun e => !e.2.cloned) ++ fout).map unwrap) k ↔ HasKey out k := by
      intro k
      rw [← hasKey_vis (fr := ef s.1)]
      simp only [HasKey, g6.mem_iff]
    refine ⟨((out.filter fun e => !e.2.cloned) ++ fout).map unwrap, ks', (f1, b1), ?_,
      ⟨⟨g2, h2, g4⟩, by simp only [g3, h3]; exact hcap⟩, h3, g5, ?_, ?_, h7, ?_⟩
    · simp only [inclusive, h1, Res.ok_bind, g1]; rfl
    · intro e he
      obtain ⟨v, hv⟩ := (hkeys e.1).1 ⟨e.2, he⟩
      exact h5 _ hv
    · intro k hk hh
      rw [hasKey_vis] at hh
      rw [hkeys]
      exact h6 k hk hh
    · intro k hk hh
      rw [hkeys] at hh
      exact h8 k hk hh
  push s l _ hl := hl.elim
  flush s hs := by
    obtain ⟨⟨i1, i2, i3⟩, hcap⟩ := hs
    obtain ⟨fout, f1, h1, h2, h3, h4⟩ := hF.flush s.1 i1
    obtain ⟨fout', f1', h1', h5, h6⟩ := fF s.1 i1
    rw [h1] at h1'
    cases h1'
    -- the elements written back
    set upd : List (K × InclCell V) := fout.filterMap fun e =>
      if e.2.updated then some (e.1, InclCell.new e.2.value) else none with hupd
    have hupd' : upd = (fout.filter fun e => e.2.updated).map
        (fun e => (e.1, (fun (_ : K) (c : InclCell V) => InclCell.new c.value) e.1 e.2)) := by
      rw [hupd]
      clear hupd upd h1 h4 h6
      induction fout with
      | nil => rfl
      | cons e l ih =>
        rw [List.filterMap_cons, List.filter_cons]
        by_cases he : e.2.updated = true
        · simp only [he, if_true, ih, List.map_cons]
        · simp only [he]
          exact ih
    have nfo : (fout.map Prod.fst).Nodup := (h6.map Prod.fst).nodup_iff.2 i3.nf
    have nup : (upd.map Prod.fst).Nodup := by
      rw [hupd', keys_map (fun (_ : K) (c : InclCell V) => InclCell.new c.value)]
      exact (List.filter_sublist.map _).nodup nfo
    have lup : ∀ k, lk upd k = ((lk (ef s.1) k).filter fun c => c.updated).map
        fun c => InclCell.new c.value := by
      intro k
      rw [hupd', lk_map (fun (_ : K) (c : InclCell V) => InclCell.new c.value), lk_filter nfo,
        lk_perm h6 nfo]
    obtain ⟨bo, ks', b1, g1, g2, g3, g4, g5, g6, -⟩ := hB.takeMultiple s.2 (upd.map Prod.fst) i2
    have hl := lk_taken i3.nb g4 g5 g6
    obtain ⟨r, b2, u1, u2, u3, u4⟩ := hB.push b1 upd g2 trivial
    -- everything pushed fits
    have hlen : (eb b1).length + upd.length ≤ (eb s.2).length := by
      have hn1 := (lk_split g4 i3.nb).1
      have : ((eb b1).map Prod.fst ++ upd.map Prod.fst).Subperm ((eb s.2).map Prod.fst) := by
        apply List.subperm_of_subset
        · rw [List.nodup_append]
          refine ⟨hn1, nup, ?_⟩
          rintro k hk _ hk' rfl
          rw [← hasKey_iff_mem_map, hasKey_iff_lk] at hk
          obtain ⟨c, hc⟩ := hk
          rw [(hl k).2, if_pos hk'] at hc
          cases hc
        · intro k hk
          rcases List.mem_append.1 hk with hk | hk
          · rw [← hasKey_iff_mem_map, hasKey_iff_lk] at hk ⊢
            obtain ⟨c, hc⟩ := hk
            rw [(hl k).2] at hc
            split at hc
            · cases hc
            · exact ⟨c, hc⟩
          · rw [← hasKey_iff_mem_map, hasKey_iff_lk] at hk ⊢
            obtain ⟨c, hc⟩ := hk
            rw [lup] at hc
            cases hx : lk (ef s.1) k with
            | none => rw [hx] at hc; simp at hc
            | some y =>
              obtain ⟨-, c', a2, -⟩ := i3.copy k y hx
              exact ⟨c', a2⟩
      simpa using this.length_le
    have hr : r.length = 0 := by
      have e1 := sB.pushExact b1 upd r b2 g2 u1
      have e2 := sB.size b1 g2
      have e3 := sB.size s.2 i2
      have e4 := hB.bounded s.2 i2
      omega
    have hr' : r = [] := List.eq_nil_of_length_eq_zero hr
    subst hr'
    rw [List.append_nil] at u4
    obtain ⟨out, b3, w1, w2, w3, -⟩ := hB.flush b2 u2
    obtain ⟨out', b3', w1', w5, w6⟩ := fB b2 u2
    rw [w1] at w1'
    cases w1'
    have nb2 : ((eb b1 ++ upd).map Prod.fst).Nodup := by
      rw [List.map_append, List.nodup_append]
      refine ⟨(lk_split g4 i3.nb).1, nup, ?_⟩
      rintro k hk _ hk' rfl
      rw [← hasKey_iff_mem_map, hasKey_iff_lk] at hk
      obtain ⟨c, hc⟩ := hk
      rw [(hl k).2, if_pos hk'] at hc
      cases hc
    refine ⟨out.map unwrap, (f1, b3), ?_, ⟨⟨h2, w2, ?_⟩, ?_⟩, w3.trans (u3.trans g3), ?_⟩
    · have : (fout.filterMap fun e => if e.2.updated = true then some (e.1, InclCell.new e.2.value) else none) = upd := rfl
      simp only [inclusive, h1, Res.ok_bind, this, g1, u1, List.length_nil, if_true, w1]; rfl
    · rw [h5, w5]
      exact ⟨by simp, by simp, by simp, by simp⟩
    · simp only [h3, w3, u3, g3]; exact hcap
    · simp only [w5, vis, List.map_nil, List.nil_append]
      have p : (out.map unwrap).Perm ((eb b1 ++ upd).map unwrap) := (w6.trans u4).map _
      refine p.trans (perm_of_lk ?_ (by
        have := keys_vis (ef s.1) (eb s.2)
        rw [vis] at this
        rw [this]; exact i3.nb) ?_)
      · have : ((eb b1 ++ upd).map unwrap).map Prod.fst = (eb b1 ++ upd).map Prod.fst := by
          simp [unwrap, Function.comp_def]
        rw [this]; exact nb2
      · intro k
        have := lk_vis (ef s.1) (eb s.2) k
        rw [vis] at this
        rw [this, lk_unwrap, lk_append, (hl k).2, lup]
        have hmem : k ∈ upd.map Prod.fst ↔ ∃ c, lk (ef s.1) k = some c ∧ c.updated = true := by
          rw [← hasKey_iff_mem_map, hasKey_iff_lk]
          simp only [lup]
          cases lk (ef s.1) k with
          | none => simp
          | some c => by_cases hc : c.updated = true <;> simp [Option.filter, hc]
        by_cases hk : k ∈ upd.map Prod.fst
        · obtain ⟨c, hc, hu⟩ := hmem.1 hk
          obtain ⟨-, c', a2, -⟩ := i3.copy k c hc
          rw [if_pos hk, hc, a2]
          simp [Option.filter, hu, InclCell.new]
        · rw [if_neg hk]
          cases hx : lk (ef s.1) k with
          | none => simp
          | some c =>
            have hu : c.updated = false := by
              cases hcu : c.updated with
              | false => rfl
              | true => exact absurd (hmem.2 ⟨c, hx, hcu⟩) hk
            obtain ⟨-, c', a2, -, a4⟩ := i3.copy k c hx
            rw [a2]
            simp [a4 hu]
  pop s n hs := by
    obtain ⟨⟨i1, i2, i3⟩, hcap⟩ := hs
    obtain ⟨out, b1, h1, h2, h3, h4, h5⟩ := hB.pop s.2 n i2
    obtain ⟨n1, n2, hl⟩ := lk_split h4 i3.nb
    obtain ⟨f1, g1, g2, g3, g4, g5⟩ := popLoop_spec hF.toCore out s.1 i1 n2 i3.nf (by
      rintro ⟨k, c⟩ he
      have hb : lk (eb s.2) k = some c := lk_of_mem i3.nb (h4.subset (by simp [he]))
      constructor
      · intro hc
        exact hasKey_iff_lk.2 (i3.copied k c hb hc)
      · intro hk
        obtain ⟨x, hx⟩ := hasKey_iff_lk.1 hk
        obtain ⟨-, c', a2, a3, -⟩ := i3.copy k x hx
        rw [hb] at a2; cases a2
        exact a3)
    obtain ⟨q1, q2⟩ := i3.remove h4 g4 g5
    refine ⟨vis (ef s.1) out, (f1, b1), ?_, ⟨⟨g2, h2, q1⟩, by simp only [g3, h3]; exact hcap⟩, h3, q2, ?_⟩
    · simp only [inclusive, h1, Res.ok_bind, g1]; rfl
    · rcases h5 with h5 | h5
      · exact Or.inl h5
      · right; simp [vis, h5]
  distinct s hs := by rw [keys_vis]; exact hs.1.2.2.nb
  pushFresh s l hs hl := by
    obtain ⟨⟨i1, i2, i3⟩, hcap⟩ := hs
    obtain ⟨out, b1, h1, h2, h3, h4⟩ := hB.push s.2 (l.map wrap) i2 trivial
    have hn : ((eb s.2 ++ l.map wrap).map Prod.fst).Nodup := by
      have : ((eb s.2 ++ l.map wrap).map Prod.fst) = (vis (ef s.1) (eb s.2) ++ l).map Prod.fst := by
        rw [List.map_append, List.map_append, keys_vis]
        simp [wrap, Function.comp_def]
      rw [this]; exact hl
    have i3' := i3.add hn (by
      intro e he
      obtain ⟨x, -, rfl⟩ := List.mem_map.1 he
      rfl)
    obtain ⟨fout, fks, f1, g1, g2, g3, g4, g5, -⟩ := front_take hF s.1 _ (eb b1) out i1 i3' h4
    refine ⟨((out.filter fun e => !e.2.cloned) ++ fout).map unwrap, (f1, b1), ?_,
      ⟨⟨g2, h2, g4⟩, by simp only [g3, h3]; exact hcap⟩, h3, ?_⟩
    · simp only [inclusive, h1, Res.ok_bind, g1, List.map_append]; rfl
    · refine g5.trans ?_
      rw [vis_append]
      apply List.Perm.append_left
      have : vis (ef s.1) (l.map wrap) = l := by
        simp only [vis, List.map_map]
        conv => rhs; rw [← List.map_id l]
        apply List.map_congr_left
        rintro ⟨k, v⟩ he
        have : lk (ef s.1) k = none := by
          cases hx : lk (ef s.1) k with
          | none => rfl
          | some c =>
            exfalso
            obtain ⟨-, c', a2, -⟩ := i3.copy k c hx
            rw [List.map_append, List.nodup_append] at hl
            refine hl.2.2 k ?_ k (List.mem_map.2 ⟨_, he, rfl⟩) rfl
            rw [keys_vis]
            exact hasKey_iff_mem_map.1 (hasKey_iff_lk.2 ⟨c', a2⟩)
        simp [wrap, this, InclCell.new]
      rw [this]
  get s k f hs hf := by
    subst hf
    obtain ⟨o, s', h1, h2, h3, h4, h5⟩ := access_spec hF sF gB gF.get s k (InclCell.read id) id hs.1
      (fun a b => by
        have := hs.1.2.2.length a b
        have e1 := sF.size s.1 hs.1.1
        have e2 := sB.size s.2 hs.1.2.1
        have e3 := hB.bounded s.2 hs.1.2.1
        have e4 := hs.2
        omega) (fun _ => rfl) (fun _ => rfl) (fun _ _ => Or.inr ⟨rfl, rfl⟩)
    exact ⟨o, s', h1, ⟨h2, by rw [h3, h4]; exact hs.2⟩, h4, h5⟩
  getMut s k f hs _ := by
    obtain ⟨o, s', h1, h2, h3, h4, h5⟩ := access_spec hF sF gB gF.getMut s k (InclCell.write f) f hs.1
      (fun a b => by
        have := hs.1.2.2.length a b
        have e1 := sF.size s.1 hs.1.1
        have e2 := sB.size s.2 hs.1.2.1
        have e3 := hB.bounded s.2 hs.1.2.1
        have e4 := hs.2
        omega) (fun _ => rfl) (fun _ => rfl) (fun c hc => Or.inl hc)
    exact ⟨o, s', h1, ⟨h2, by rw [h3, h4]; exact hs.2⟩, h4, h5⟩

end

end Inclusive
end Byoc
