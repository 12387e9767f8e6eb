import Verif.Proofs.Inclusive

/-! # `Inclusive` with any front: it may panic or lose elements, but never returns a stale value -/

namespace Byoc

variable {K V : Type} [DecidableEq K]

theorem subperm_of_lk {l m : List (K × V)} (hl : (l.map Prod.fst).Nodup)
    (h : ∀ k v, lk l k = some v → lk m k = some v) : l.Subperm m :=
  List.subperm_of_subset (nodup_of_keys hl) fun e he => mem_of_lk (h e.1 e.2 (lk_of_mem hl he))

namespace Inclusive

/-- Every cell in front is the copy of a cell of the back flagged as copied, with the same value
unless the front one is flagged as written to.  (A cell flagged as copied may have lost its copy.) -/
structure Weak (fr bk : List (K × InclCell V)) : Prop where
  nf : (fr.map Prod.fst).Nodup
  nb : (bk.map Prod.fst).Nodup
  copy : ∀ k c, lk fr k = some c → c.cloned = true ∧
    ∃ c', lk bk k = some c' ∧ c'.cloned = true ∧ (c.updated = false → c'.value = c.value)

theorem Weak.remove {fr bk frest rest out : List (K × InclCell V)} (h : Weak fr bk)
    (hp : (rest ++ out).Perm bk) (hnf : (frest.map Prod.fst).Nodup)
    (hf : ∀ k, lk frest k = if k ∈ clonedKeys out then none else lk fr k) :
    Weak frest rest ∧ (vis frest rest ++ vis fr out).Perm (vis fr bk) := by
  obtain ⟨n1, n2, hl⟩ := lk_split hp h.nb
  refine ⟨⟨hnf, n1, ?_⟩, ?_⟩
  · intro k c hk
    rw [hf] at hk
    split at hk
    · simp at hk
    · rename_i hnk
      obtain ⟨h1, c', h2, h3, h4⟩ := h.copy k c hk
      refine ⟨h1, c', ?_, h3, h4⟩
      rcases (hl k).2 with hr | ho
      · rw [(hl k).1, hr, Option.none_or] at h2
        exact absurd ((mem_clonedKeys n2).2 ⟨c', h2, h3⟩) hnk
      · rw [(hl k).1, ho, Option.or_none] at h2
        exact h2
  · refine List.Perm.trans ?_ (vis_perm fr hp)
    rw [vis_append, vis_congr (fr := frest) (fr' := fr)]
    rintro k hk
    rw [hf, if_neg]
    rw [mem_clonedKeys n2]
    rintro ⟨c, hc, -⟩
    rw [hasKey_iff_lk] at hk
    obtain ⟨c', hc'⟩ := hk
    rcases (hl k).2 with hr | ho
    · rw [hr] at hc'; simp at hc'
    · rw [ho] at hc; simp at hc

theorem Weak.out {fr bk rest out fout frest : List (K × InclCell V)} (h : Weak fr bk)
    (hp : (rest ++ out).Perm bk) (hpf : (frest ++ fout).Perm fr)
    (hf : ∀ k, lk fout k = if k ∈ clonedKeys out then lk fr k else none) :
    (((out.filter fun e => !e.2.cloned) ++ fout).map unwrap).Subperm (vis fr out) := by
  obtain ⟨n1, n2, hl⟩ := lk_split hp h.nb
  obtain ⟨-, m2, -⟩ := lk_split hpf h.nf
  have hkeys : (((out.filter fun e => !e.2.cloned) ++ fout).map unwrap).map Prod.fst =
      (out.filter fun e => !e.2.cloned).map Prod.fst ++ fout.map Prod.fst := by
    simp [unwrap, Function.comp_def]
  have hnd : ((out.filter fun e => !e.2.cloned).map Prod.fst ++ fout.map Prod.fst).Nodup := by
    rw [List.nodup_append]
    refine ⟨(List.filter_sublist.map _).nodup n2, m2, ?_⟩
    rintro k hk _ hk' rfl
    rw [← hasKey_iff_mem_map, hasKey_iff_lk] at hk hk'
    obtain ⟨c, hc⟩ := hk
    obtain ⟨c', hc'⟩ := hk'
    rw [lk_filter n2, Option.filter_eq_some_iff] at hc
    rw [hf] at hc'
    split at hc'
    · rename_i hm
      rw [mem_clonedKeys n2, hc.1] at hm
      obtain ⟨x, hx, hx'⟩ := hm
      cases hx
      simp [hx'] at hc
    · simp at hc'
  refine subperm_of_lk (by rw [hkeys]; exact hnd) ?_
  intro k v
  rw [lk_unwrap, lk_vis, lk_append, lk_filter n2, hf]
  cases ho : lk out k with
  | none =>
    have : k ∉ clonedKeys out := by rw [mem_clonedKeys n2, ho]; simp
    simp [this]
  | some c =>
    have hb : lk bk k = some c := by
      rw [(hl k).1]
      rcases (hl k).2 with hr | ho'
      · rw [hr, ho]; rfl
      · rw [ho] at ho'; simp at ho'
    by_cases hc : c.cloned = true
    · have : k ∈ clonedKeys out := (mem_clonedKeys n2).2 ⟨c, ho, hc⟩
      cases hx : lk fr k with
      | none => simp [Option.filter, hc, this]
      | some x => simp [Option.filter, hc, this]
    · have : k ∉ clonedKeys out := by
        rw [mem_clonedKeys n2, ho]
        rintro ⟨x, hx, hx'⟩
        cases hx; exact hc hx'
      have hfr : lk fr k = none := by
        cases hfk : lk fr k with
        | none => rfl
        | some y =>
          obtain ⟨-, c', h2, h3, -⟩ := h.copy k y hfk
          rw [hb] at h2; cases h2
          exact absurd h3 hc
      simp [Option.filter, hc, this, hfr]

theorem Weak.add {fr bk new : List (K × InclCell V)} (h : Weak fr bk)
    (hn : ((bk ++ new).map Prod.fst).Nodup) : Weak fr (bk ++ new) := by
  refine ⟨h.nf, hn, ?_⟩
  intro k c hk
  obtain ⟨h1, c', h2, h3⟩ := h.copy k c hk
  exact ⟨h1, c', by rw [lk_append, h2]; rfl, h3⟩

theorem popLoop_weak {F : Block K (InclCell V)} {If ef} {Pre : List (K × InclCell V) → Prop}
    (hF : Core F If ef Pre) :
    ∀ (out : List (K × InclCell V)) (f : F.State), If f → (out.map Prod.fst).Nodup →
      ((ef f).map Prod.fst).Nodup →
      (∀ e ∈ out, HasKey (ef f) e.1 → e.2.cloned = true) →
      popLoop F f out = .panic ∨
      ∃ f', popLoop F f out = .ok (vis (ef f) out, f') ∧ If f' ∧ F.capacity f' = F.capacity f ∧
        ((ef f').map Prod.fst).Nodup ∧
        ∀ k, lk (ef f') k = if k ∈ clonedKeys out then none else lk (ef f) k := by
  intro out
  induction out with
  | nil => intro f hf _ hn _; exact Or.inr ⟨f, rfl, hf, rfl, hn, by simp [clonedKeys]⟩
  | cons e out ih =>
    intro f hf hn hnf hcl
    obtain ⟨k, c⟩ := e
    simp only [List.map_cons, List.nodup_cons] at hn
    have hke : ∀ e ∈ out, e.1 ≠ k := fun e he hk => hn.1 (List.mem_map.2 ⟨e, he, hk⟩)
    by_cases hc : c.cloned = true
    · obtain ⟨o, f1, h1, h2, h3, h4⟩ := hF.take f k hf
      cases o with
      | none => left; simp only [popLoop, hc, if_true, h1, Res.ok_bind]; rfl
      | some x =>
        obtain ⟨hx, hp⟩ := h4
        obtain ⟨k', cx⟩ := x
        simp only at hx
        subst hx
        have hnd := (hp.map Prod.fst).nodup_iff.2 hnf
        have hlk := fun k => lk_perm hp hnd k
        simp only [List.map_cons, List.nodup_cons] at hnd
        have hlk' : ∀ k, lk (ef f1) k = if k = k' then none else lk (ef f) k := by
          intro k
          rw [← hlk, lk_cons]
          simp only
          by_cases hk : k = k'
          · subst hk
            rw [if_pos rfl, lk_none_iff, hasKey_iff_mem_map]
            exact hnd.1
          · rw [if_neg hk, if_neg (Ne.symm hk)]
        have hlkx : lk (ef f) k' = some cx := by rw [← hlk, lk_cons]; simp
        rcases ih f1 h2 hn.2 hnd.2 (by
          intro e he
          rw [hasKey_iff_lk, hlk', if_neg (hke e he), ← hasKey_iff_lk]
          exact hcl e (by simp [he])) with g1 | ⟨f', g1, g2, g3, g4, g5⟩
        · left
          simp only [popLoop, hc, if_true, h1, Res.ok_bind, Res.unwrap_some, g1]; rfl
        · refine Or.inr ⟨f', ?_, g2, g3.trans h3, g4, ?_⟩
          · have hv : vis (ef f1) out = vis (ef f) out := by
              apply vis_congr
              rintro j ⟨y, hy⟩
              rw [hlk', if_neg (hke _ hy)]
            rw [hv] at g1
            simp only [popLoop, hc, if_true, h1, Res.ok_bind, Res.unwrap_some, g1, Res.pure_eq, vis,
              List.map_cons, unwrap, hlkx, Option.getD_some]
          · intro j
            rw [g5, hlk']
            rw [clonedKeys_cons, if_pos hc]
            by_cases hj : j = k'
            · subst hj; simp
            · by_cases hm : j ∈ clonedKeys out
              · rw [if_pos hm, if_pos (List.mem_cons_of_mem _ hm)]
              · rw [if_neg hm, if_neg hj, if_neg]
                intro hh
                rcases List.mem_cons.1 hh with hh | hh
                · exact hj hh
                · exact hm hh
    · have hk : lk (ef f) k = none := by
        rw [lk_none_iff]; exact fun hh => hc (hcl (k, c) (by simp) hh)
      rcases ih f hf hn.2 hnf (fun e he => hcl e (by simp [he])) with g1 | ⟨f', g1, g2, g3, g4, g5⟩
      · left
        simp only [popLoop, hc, g1]; rfl
      · refine Or.inr ⟨f', ?_, g2, g3, g4, ?_⟩
        · simp only [popLoop, hc, g1, Res.ok_bind, Res.pure_eq, vis, List.map_cons, unwrap, hk,
            Option.getD_none]
          simp
        · intro j
          rw [g5]
          rw [clonedKeys_cons, if_neg hc]

theorem Weak.clone {fr bk fr' bk' rest : List (K × InclCell V)} {k : K} {c : InclCell V}
    (h : Weak fr bk) (hk : ¬ HasKey fr k) (h1 : bk.Perm ((k, c) :: rest))
    (h2 : bk'.Perm ((k, c.clone) :: rest)) (h3 : fr'.Perm (fr ++ [(k, c.clone)])) :
    Weak fr' bk' ∧ (vis fr' bk').Perm (vis fr bk) := by
  have nbk := (h1.map Prod.fst).nodup_iff.1 h.nb
  have nbk' : (bk'.map Prod.fst).Nodup := (h2.map Prod.fst).nodup_iff.2 (by simpa using nbk)
  have nfr' : ((fr ++ [(k, c.clone)]).map Prod.fst).Nodup := by
    rw [List.map_append, List.nodup_append]
    refine ⟨h.nf, by simp, ?_⟩
    intro a ha b hb
    simp only [List.map_cons, List.map_nil, List.mem_singleton] at hb
    subst hb
    rintro rfl
    exact hk (hasKey_iff_mem_map.2 ha)
  have nfr := (h3.map Prod.fst).nodup_iff.2 nfr'
  have lfr : ∀ j, lk fr' j = if j = k then some c.clone else lk fr j := by
    intro j
    rw [lk_perm h3 nfr, lk_append, lk_cons]
    by_cases hj : j = k
    · subst hj; simp [lk_none_iff.2 hk]
    · simp [hj, Ne.symm hj]
  have lbk : ∀ j, lk bk j = if j = k then some c else lk rest j := by
    intro j
    rw [lk_perm h1 h.nb, lk_cons]
    by_cases hj : j = k
    · subst hj; simp
    · simp [hj, Ne.symm hj]
  have lbk' : ∀ j, lk bk' j = if j = k then some c.clone else lk rest j := by
    intro j
    rw [lk_perm h2 nbk', lk_cons]
    by_cases hj : j = k
    · subst hj; simp
    · simp [hj, Ne.symm hj]
  refine ⟨⟨nfr, nbk', ?_⟩, ?_⟩
  · intro j d hj
    rw [lfr] at hj
    split at hj
    · rename_i hjk
      cases hj
      exact ⟨rfl, c.clone, by rw [lbk', if_pos hjk], rfl, fun _ => rfl⟩
    · rename_i hjk
      obtain ⟨a1, c', a2, a3⟩ := h.copy j d hj
      rw [lbk, if_neg hjk] at a2
      exact ⟨a1, c', by rw [lbk', if_neg hjk, a2], a3⟩
  · refine perm_of_lk (by rw [keys_vis]; exact nbk') (by rw [keys_vis]; exact h.nb) ?_
    intro j
    rw [lk_vis, lk_vis, lfr, lbk, lbk']
    by_cases hj : j = k
    · subst hj
      simp [lk_none_iff.2 hk, InclCell.clone]
    · simp [hj]

theorem Weak.access {fr fr' bk rest : List (K × InclCell V)} {k : K} {c d : InclCell V}
    (h : Weak fr bk) (h1 : fr.Perm ((k, c) :: rest)) (h2 : fr'.Perm ((k, d) :: rest))
    (hd : d.cloned = true) (hu : d.updated = true ∨ (d.value = c.value ∧ d.updated = c.updated)) :
    Weak fr' bk ∧ ∃ others, (vis fr bk).Perm ((k, c.value) :: others) ∧
      (vis fr' bk).Perm ((k, d.value) :: others) := by
  have nfr := (h1.map Prod.fst).nodup_iff.1 h.nf
  have nfr' : (fr'.map Prod.fst).Nodup := (h2.map Prod.fst).nodup_iff.2 (by simpa using nfr)
  have lfr : ∀ j, lk fr j = if j = k then some c else lk rest j := by
    intro j
    rw [lk_perm h1 h.nf, lk_cons]
    by_cases hj : j = k
    · subst hj; simp
    · simp [hj, Ne.symm hj]
  have lfr' : ∀ j, lk fr' j = if j = k then some d else lk rest j := by
    intro j
    rw [lk_perm h2 nfr', lk_cons]
    by_cases hj : j = k
    · subst hj; simp
    · simp [hj, Ne.symm hj]
  obtain ⟨hc, cb, hcb, hcb2, hval⟩ := h.copy k c (by rw [lfr, if_pos rfl])
  refine ⟨⟨nfr', h.nb, ?_⟩, ?_⟩
  · intro j x hj
    rw [lfr'] at hj
    split at hj
    · rename_i hjk
      cases hj
      subst hjk
      refine ⟨hd, cb, hcb, hcb2, ?_⟩
      intro hx
      rcases hu with hu | hu
      · rw [hu] at hx; cases hx
      · rw [hval (by rw [← hu.2]; exact hx), hu.1]
    · rename_i hjk
      exact h.copy j x (by rw [lfr, if_neg hjk, hj])
  · obtain ⟨r, hr⟩ : ∃ r, bk.Perm ((k, cb) :: r) := by
      obtain ⟨a, b, hab⟩ := List.append_of_mem (mem_of_lk hcb)
      exact ⟨a ++ b, by rw [hab]; exact List.perm_middle⟩
    have hnr := (hr.map Prod.fst).nodup_iff.1 h.nb
    simp only [List.map_cons, List.nodup_cons] at hnr
    refine ⟨vis rest r, ?_, ?_⟩
    · refine (vis_perm fr hr).trans ?_
      have : vis fr r = vis rest r := by
        apply vis_congr
        intro j hj
        rw [lfr, if_neg]
        rintro rfl
        exact hnr.1 (hasKey_iff_mem_map.1 hj)
      rw [← this]
      simp [vis, lfr]
    · refine (vis_perm fr' hr).trans ?_
      have : vis fr' r = vis rest r := by
        apply vis_congr
        intro j hj
        rw [lfr', if_neg]
        rintro rfl
        exact hnr.1 (hasKey_iff_mem_map.1 hj)
      rw [← this]
      simp [vis, lfr']

/-- Replacing in the back the cells `upd` (with keys of the back) by new cells. -/
theorem lk_replace {bk rest out upd bk' : List (K × InclCell V)} (hn : (bk.map Prod.fst).Nodup)
    (hnu : (upd.map Prod.fst).Nodup)
    (hp : (rest ++ out).Perm bk) (h1 : ∀ e ∈ out, e.1 ∈ upd.map Prod.fst)
    (h2 : ∀ k ∈ upd.map Prod.fst, HasKey bk k → HasKey out k)
    (hb : bk'.Perm (rest ++ upd)) :
    (bk'.map Prod.fst).Nodup ∧ ∀ k, lk bk' k = (lk upd k).or (lk bk k) := by
  have hl := lk_taken hn hp h1 h2
  have hnd : ((rest ++ upd).map Prod.fst).Nodup := by
    rw [List.map_append, List.nodup_append]
    refine ⟨(lk_split hp hn).1, hnu, ?_⟩
    rintro k hk _ hk' rfl
    rw [← hasKey_iff_mem_map, hasKey_iff_lk] at hk
    obtain ⟨c, hc⟩ := hk
    rw [(hl k).2, if_pos hk'] at hc
    cases hc
  have hnb := (hb.map Prod.fst).nodup_iff.2 hnd
  refine ⟨hnb, fun k => ?_⟩
  rw [lk_perm hb hnb, lk_append, (hl k).2]
  split
  · rename_i hk
    rw [← hasKey_iff_mem_map, hasKey_iff_lk] at hk
    obtain ⟨c, hc⟩ := hk
    simp [hc]
  · rename_i hk
    have : lk upd k = none := by rw [lk_none_iff, hasKey_iff_mem_map]; exact hk
    simp [this]

/-- Cells evicted from the front: those written to replace their original in the back. -/
theorem Weak.evict {fr bk frest popped rest out bk' : List (K × InclCell V)} (h : Weak fr bk)
    (hp : (frest ++ popped).Perm fr) (hb : (rest ++ out).Perm bk)
    (h1 : ∀ e ∈ out, e.1 ∈ (popped.filter fun e => e.2.updated).map Prod.fst)
    (h2 : ∀ k ∈ (popped.filter fun e => e.2.updated).map Prod.fst, HasKey bk k → HasKey out k)
    (hb' : bk'.Perm (rest ++ popped.filter fun e => e.2.updated)) :
    Weak frest bk' ∧ (vis frest bk').Perm (vis fr bk) := by
  obtain ⟨nfr, npop, hl⟩ := lk_split hp h.nf
  have nupd : ((popped.filter fun e => e.2.updated).map Prod.fst).Nodup :=
    (List.filter_sublist.map _).nodup npop
  obtain ⟨nb', lb'⟩ := lk_replace h.nb nupd hb h1 h2 hb'
  have lupd : ∀ k, lk (popped.filter fun e => e.2.updated) k = (lk popped k).filter fun c => c.updated :=
    fun k => lk_filter npop _ k
  refine ⟨⟨nfr, nb', ?_⟩, ?_⟩
  · intro k c hk
    have hpk : lk popped k = none := by
      rcases (hl k).2 with hr | hr
      · rw [hk] at hr; cases hr
      · exact hr
    have hfr : lk fr k = some c := by rw [(hl k).1, hk]; rfl
    obtain ⟨a1, c', a2, a3⟩ := h.copy k c hfr
    exact ⟨a1, c', by rw [lb', lupd, hpk, a2]; rfl, a3⟩
  · refine perm_of_lk (by rw [keys_vis]; exact nb') (by rw [keys_vis]; exact h.nb) ?_
    intro k
    rw [lk_vis, lk_vis, lb', lupd, (hl k).1]
    cases hpk : lk popped k with
    | none => simp
    | some c =>
      have hfr : lk frest k = none := by
        rcases (hl k).2 with hr | hr
        · exact hr
        · rw [hpk] at hr; cases hr
      obtain ⟨a1, c', a2, a3, a4⟩ := h.copy k c (by rw [(hl k).1, hpk, hfr]; rfl)
      rw [hfr, a2]
      cases hu : c.updated with
      | true => simp [Option.filter, hu]
      | false => simp [Option.filter, hu, a4 hu]

section
variable {F B : Block K (InclCell V)} {GF : GetOps F} {GB : GetOps B}
  {If : F.State → Prop} {Ib : B.State → Prop}
  {ef : F.State → List (K × InclCell V)} {eb : B.State → List (K × InclCell V)}

/-- States of an `Inclusive` (any capacities). -/
def WInv (If : F.State → Prop) (Ib : B.State → Prop) (ef : F.State → List (K × InclCell V))
    (eb : B.State → List (K × InclCell V)) (s : F.State × B.State) : Prop :=
  If s.1 ∧ Ib s.2 ∧ Weak (ef s.1) (eb s.2)

/-- An access that returns: the value found is the current one, nothing else changes. -/
theorem access_weak (hF : Lawful F If ef fun _ => True) (hB : Lawful B Ib eb fun _ => True)
    (gB : GetLawful B GB Ib eb fun _ => True)
    {op : F.State → K → (InclCell V → InclCell V) → Res (Option (InclCell V) × F.State)}
    (hop : AccessLaw F op If ef fun _ => True)
    (s : F.State × B.State) (k : K) (g : InclCell V → InclCell V) (f : V → V)
    (hI : WInv If Ib ef eb s)
    (hg : ∀ c, (g c).value = f c.value) (hgc : ∀ c, (g c).cloned = c.cloned)
    (hgu : ∀ c, c.cloned = true →
      (g c).updated = true ∨ ((g c).value = c.value ∧ (g c).updated = c.updated))
    (o : Option V) (s' : F.State × B.State)
    (he : inclusiveAccess F B GB op s k g = .ok (o, s')) :
      WInv If Ib ef eb s' ∧
      match o with
      | none => (vis (ef s'.1) (eb s'.2)).Perm (vis (ef s.1) (eb s.2))
      | some v => ∃ rest, (vis (ef s.1) (eb s.2)).Perm ((k, v) :: rest) ∧
          (vis (ef s'.1) (eb s'.2)).Perm ((k, f v) :: rest) := by
  -- access in front
  have front : ∀ (f1 : F.State) (b1 : B.State), If f1 → Ib b1 → Weak (ef f1) (eb b1) →
      ∃ o f2, op f1 k g = .ok (o, f2) ∧ If f2 ∧ Weak (ef f2) (eb b1) ∧
        match o with
        | none => (vis (ef f2) (eb b1)).Perm (vis (ef f1) (eb b1))
        | some c => ∃ rest, (vis (ef f1) (eb b1)).Perm ((k, c.value) :: rest) ∧
          (vis (ef f2) (eb b1)).Perm ((k, f c.value) :: rest) := by
    intro f1 b1 i1 i2 i3
    obtain ⟨o, f2, h1, h2, h3, h4⟩ := hop f1 k g i1 trivial
    cases o with
    | none =>
      have n2 : ((ef f2).map Prod.fst).Nodup := (h4.2.map Prod.fst).nodup_iff.2 i3.nf
      have hlk := fun j => lk_perm h4.2 n2 j
      refine ⟨none, f2, h1, h2, ⟨n2, i3.nb, fun j c hj => i3.copy j c (by rw [← hlk, hj])⟩, ?_⟩
      rw [vis_congr fun j _ => hlk j]
    | some c =>
      obtain ⟨r, p1, p2⟩ := h4
      have hlk : lk (ef f1) k = some c := by rw [lk_perm p1 i3.nf, lk_cons]; simp
      obtain ⟨hc, -⟩ := i3.copy k c hlk
      obtain ⟨q1, others, q2, q3⟩ := i3.access p1 p2 (by rw [hgc, hc]) (hgu c hc)
      rw [hg] at q3
      exact ⟨some c, f2, h1, h2, q1, others, q2, q3⟩
  have finish : ∀ (f1 : F.State) (b1 : B.State), If f1 → Ib b1 → Weak (ef f1) (eb b1) →
      (vis (ef f1) (eb b1)).Perm (vis (ef s.1) (eb s.2)) →
      (do let (o, fr) ← op f1 k g; return (o.map InclCell.value, (fr, b1))) = Res.ok (o, s') →
      WInv If Ib ef eb s' ∧
      match o with
      | none => (vis (ef s'.1) (eb s'.2)).Perm (vis (ef s.1) (eb s.2))
      | some v => ∃ rest, (vis (ef s.1) (eb s.2)).Perm ((k, v) :: rest) ∧
          (vis (ef s'.1) (eb s'.2)).Perm ((k, f v) :: rest) := by
    intro f1 b1 i1 i2 i3 hp he
    obtain ⟨o', f2, g1, g2, g3, g4⟩ := front f1 b1 i1 i2 i3
    simp only [g1, Res.ok_bind, Res.pure_eq, Res.ok.injEq, Prod.mk.injEq] at he
    obtain ⟨rfl, rfl⟩ := he
    refine ⟨⟨g2, i2, g3⟩, ?_⟩
    cases o' with
    | none => exact List.Perm.trans g4 hp
    | some c =>
      obtain ⟨r, r1, r2⟩ := g4
      exact ⟨r, hp.symm.trans r1, r2⟩
  obtain ⟨i1, i2, i3⟩ := hI
  obtain ⟨b, f1, h1, h2, h3, h3', h4, h5⟩ := hF.contains s.1 k i1
  by_cases hb : b = true
  · simp only [inclusiveAccess, h1, Res.ok_bind, hb, if_true, Res.pure_eq] at he
    exact finish f1 s.2 h2 i2 (by rw [h4]; exact i3) (by rw [h4]) he
  · have hk1 : ¬ HasKey (ef f1) k := by rw [h4]; exact fun h => hb (h5.2 h)
    obtain ⟨o1, b1, a1, a2, a3, a4⟩ := gB.get s.2 k InclCell.clone i2 trivial
    rw [← h4] at i3
    cases o1 with
    | none =>
      simp only [inclusiveAccess, h1, Res.ok_bind, hb, inclusiveDowngrade, a1, Res.pure_eq,
        Bool.false_eq_true, if_false, Res.ok.injEq, Prod.mk.injEq] at he
      obtain ⟨rfl, rfl⟩ := he
      refine ⟨⟨h2, a2, (i3.remove (rest := eb b1) (out := []) (by simpa using a4.2) i3.nf
        (by simp [clonedKeys])).1⟩, ?_⟩
      rw [h4]
      exact vis_perm _ a4.2
    | some c =>
      obtain ⟨r, p1, p2⟩ := a4
      obtain ⟨popped, f2, u1, u2, u3, u4⟩ := hF.push f1 [(k, c.clone)] h2 trivial
      obtain ⟨q1, q2⟩ := i3.clone hk1 p1 p2 (List.Perm.refl _)
      rw [h4] at q2
      simp only [inclusiveAccess, h1, Res.ok_bind, hb, inclusiveDowngrade, a1, Res.pure_eq,
        Bool.false_eq_true, if_false, u1] at he
      by_cases hpop : popped.filter (fun e => e.2.updated) = []
      · rw [if_pos hpop] at he
        obtain ⟨w1, w2⟩ := q1.evict (rest := eb b1) (out := []) (bk' := eb b1) u4
          (by simp) (by simp) (by rw [hpop]; simp) (by rw [hpop]; simp)
        rw [h4] at w2
        exact finish f2 b1 u2 a2 w1 (w2.trans q2) he
      · rw [if_neg hpop] at he
        obtain ⟨out, ks', b2, e1, e2, e3, e4, e5, e6, -⟩ := hB.takeMultiple b1
          ((popped.filter fun e => e.2.updated).map Prod.fst) a2
        obtain ⟨out2, b3, d1, d2, d3, d4⟩ := hB.push b2 (popped.filter fun e => e.2.updated) e2 trivial
        simp only [e1, Res.ok_bind, d1] at he
        by_cases ho : out2 = []
        · rw [if_pos ho] at he
          subst ho
          rw [List.append_nil] at d4
          obtain ⟨w1, w2⟩ := q1.evict u4 e4 e5 e6 d4
          rw [h4] at w2
          exact finish f2 b3 u2 d2 w1 (w2.trans q2) he
        · rw [if_neg ho] at he
          exact absurd he (by simp)

/-- Copies taken from the front, when what should be copied may have no copy. -/
theorem front_take_weak {okF : List (K × InclCell V) → Prop} (hF : Lawful F If ef okF) (f : F.State)
    (bk rest out : List (K × InclCell V))
    (hf : If f) (h : Weak (ef f) bk) (hp : (rest ++ out).Perm bk) :
    ∃ fout ks' f', F.takeMultiple f (clonedKeys out) = .ok (fout, ks', f') ∧ If f' ∧
      Weak (ef f') rest ∧
      (vis (ef f') rest ++ ((out.filter fun e => !e.2.cloned) ++ fout).map unwrap).Subperm
        (vis (ef f) bk) := by
  obtain ⟨fout, ks', f', h1, h2, h3, h4, h5, h6, -⟩ := hF.takeMultiple f (clonedKeys out) hf
  have hl := lk_taken h.nf h4 h5 h6
  obtain ⟨q1, q2⟩ := h.remove hp (lk_split h4 h.nf).1 (fun k => (hl k).2)
  have q3 := h.out hp h4 (fun k => (hl k).1)
  refine ⟨fout, ks', f', h1, h2, q1, ?_⟩
  subperms [q3] [q2]

/-- Every call that returns hands back and keeps only current values. -/
theorem step_weak {okF okB : List (K × InclCell V) → Prop} (hF : Lawful F If ef okF) (fF : Flushes F If ef)
    (hB : Lawful B Ib eb okB) (hokB : ∀ l, (l.map Prod.fst).Nodup → okB l) (fB : Flushes B Ib eb)
    (s : F.State × B.State) (hI : WInv If Ib ef eb s) (op : Op K V)
    (hf : ((vis (ef s.1) (eb s.2) ++ op.given).map Prod.fst).Nodup)
    (out : List (K × V)) (s' : F.State × B.State)
    (he : (inclusive F B).step s op = .ok (out, s')) :
    WInv If Ib ef eb s' ∧
      (vis (ef s'.1) (eb s'.2) ++ out).Subperm (vis (ef s.1) (eb s.2) ++ op.given) := by
  obtain ⟨i1, i2, i3⟩ := hI
  cases op with
  | contains k =>
    obtain ⟨b, f1, h1, h2, h3, h3', h4, h5⟩ := hF.contains s.1 k i1
    obtain ⟨b', b1, g1, g2, g3, g3', g4, g5⟩ := hB.contains s.2 k i2
    by_cases hb : b = true
    · simp only [Block.step, inclusive, h1, hb, Res.ok_bind, if_true, Res.pure_eq, Res.ok.injEq,
        Prod.mk.injEq] at he
      obtain ⟨rfl, rfl⟩ := he
      exact ⟨⟨h2, i2, by simp only [h4]; exact i3⟩, by simp [Op.given, h4, List.Subperm.refl]⟩
    · simp only [Block.step, inclusive, h1, hb, Res.ok_bind, g1, Res.pure_eq, Res.ok.injEq,
        Prod.mk.injEq, Bool.false_eq_true, if_false] at he
      obtain ⟨rfl, rfl⟩ := he
      exact ⟨⟨h2, g2, by simp only [h4, g4]; exact i3⟩, by simp [Op.given, h4, g4, List.Subperm.refl]⟩
  | take k =>
    obtain ⟨o, b1, h1, h2, h3, h4⟩ := hB.take s.2 k i2
    cases o with
    | none =>
      simp only [Block.step, inclusive, h1, Res.ok_bind, Res.pure_eq, Res.ok.injEq,
        Prod.mk.injEq] at he
      obtain ⟨rfl, rfl⟩ := he
      refine ⟨⟨i1, h2, (i3.remove (rest := eb b1) (out := []) (by simpa using h4.2) i3.nf
        (by simp [clonedKeys])).1⟩, ?_⟩
      simpa [Op.given] using (vis_perm _ h4.2).subperm
    | some e =>
      obtain ⟨k', c⟩ := e
      obtain ⟨hk, hp⟩ := h4
      simp only at hk
      subst hk
      have hp' : (eb b1 ++ [(k', c)]).Perm (eb s.2) := by perms [hp]
      have hlk : lk (eb s.2) k' = some c := lk_of_mem i3.nb (hp.subset (by simp))
      by_cases hc : c.cloned = true
      · obtain ⟨o, f1, g1, g2, g3, g4⟩ := hF.take s.1 k' i1
        cases o with
        | none =>
          simp only [Block.step, inclusive, h1, Res.ok_bind, hc, if_true, g1, Res.unwrap,
            Res.panic_bind] at he
          exact absurd he (by simp)
        | some y =>
          obtain ⟨ky, d⟩ := y
          obtain ⟨hky, hpf⟩ := g4
          simp only at hky
          subst hky
          have hd : lk (ef s.1) ky = some d := lk_of_mem i3.nf (hpf.subset (by simp))
          have hnd := (hpf.map Prod.fst).nodup_iff.2 i3.nf
          have hlkf : ∀ j, lk (ef f1) j = if j ∈ clonedKeys [(ky, c)] then none else lk (ef s.1) j := by
            intro j
            rw [clonedKeys_cons, if_pos hc, ← lk_perm hpf hnd, lk_cons]
            simp only [List.map_cons, List.nodup_cons] at hnd
            by_cases hj : j = ky
            · subst hj
              rw [if_pos (by simp), lk_none_iff, hasKey_iff_mem_map]
              exact hnd.1
            · rw [if_neg (by simpa [clonedKeys] using hj), if_neg (Ne.symm hj)]
          simp only [List.map_cons, List.nodup_cons] at hnd
          obtain ⟨q1, q2⟩ := i3.remove hp' hnd.2 hlkf
          simp only [Block.step, inclusive, h1, Res.ok_bind, hc, if_true, g1, Res.unwrap_some,
            Res.pure_eq, Res.ok.injEq, Prod.mk.injEq] at he
          obtain ⟨rfl, rfl⟩ := he
          refine ⟨⟨g2, h2, q1⟩, ?_⟩
          simp only [vis, List.map_cons, List.map_nil, hd, Option.getD_some] at q2
          simp only [Op.given, Option.toList, unwrap, List.append_nil]
          exact q2.subperm
      · have hnone : lk (ef s.1) k' = none := by
          cases hf : lk (ef s.1) k' with
          | none => rfl
          | some y =>
            obtain ⟨-, c', a2, a3, -⟩ := i3.copy k' y hf
            rw [hlk] at a2; cases a2
            exact absurd a3 hc
        obtain ⟨q1, q2⟩ := i3.remove hp' i3.nf (by
          intro j; rw [clonedKeys_cons, if_neg hc]; simp [clonedKeys])
        simp only [Block.step, inclusive, h1, Res.ok_bind, hc, Bool.false_eq_true, if_false,
            Res.pure_eq, Res.ok.injEq, Prod.mk.injEq] at he
        obtain ⟨rfl, rfl⟩ := he
        refine ⟨⟨i1, h2, q1⟩, ?_⟩
        simp only [vis, List.map_cons, List.map_nil, hnone, Option.getD_none] at q2
        simp only [Op.given, Option.toList, unwrap, List.append_nil]
        exact q2.subperm
  | takeMultiple ks =>
    obtain ⟨bo, ks', b1, h1, h2, h3, h4, -⟩ := hB.takeMultiple s.2 ks i2
    obtain ⟨fout, fks, f1, g1, g2, g3, g4⟩ := front_take_weak hF s.1 (eb s.2) (eb b1) bo i1 i3 h4
    simp only [Block.step, inclusive, h1, Res.ok_bind, g1, Res.pure_eq, Res.ok.injEq,
      Prod.mk.injEq] at he
    obtain ⟨rfl, rfl⟩ := he
    exact ⟨⟨g2, h2, g3⟩, by simpa [Op.given] using g4⟩
  | pop n =>
    obtain ⟨bo, b1, h1, h2, h3, h4, h5⟩ := hB.pop s.2 n i2
    obtain ⟨n1, n2, hl⟩ := lk_split h4 i3.nb
    rcases popLoop_weak hF.toCore bo s.1 i1 n2 i3.nf (by
      rintro ⟨k, c⟩ he hk
      have hb : lk (eb s.2) k = some c := lk_of_mem i3.nb (h4.subset (by simp [he]))
      obtain ⟨x, hx⟩ := hasKey_iff_lk.1 hk
      obtain ⟨-, c', a2, a3, -⟩ := i3.copy k x hx
      rw [hb] at a2; cases a2
      exact a3) with g1 | ⟨f1, g1, g2, g3, g4, g5⟩
    · simp only [Block.step, inclusive, h1, Res.ok_bind, g1, Res.panic_bind] at he
      exact absurd he (by simp)
    · obtain ⟨q1, q2⟩ := i3.remove h4 g4 g5
      simp only [Block.step, inclusive, h1, Res.ok_bind, g1, Res.pure_eq, Res.ok.injEq,
        Prod.mk.injEq] at he
      obtain ⟨rfl, rfl⟩ := he
      exact ⟨⟨g2, h2, q1⟩, by simpa [Op.given] using q2.subperm⟩
  | push l =>
    simp only [Op.given] at hf ⊢
    have hn : ((eb s.2 ++ l.map wrap).map Prod.fst).Nodup := by
      have : ((eb s.2 ++ l.map wrap).map Prod.fst) = (vis (ef s.1) (eb s.2) ++ l).map Prod.fst := by
        rw [List.map_append, List.map_append, keys_vis]
        simp [wrap, Function.comp_def]
      rw [this]; exact hf
    obtain ⟨bo, b1, h1, h2, h3, h4⟩ := hB.push s.2 (l.map wrap) i2
      (hokB _ (by rw [List.map_append, List.nodup_append] at hn; exact hn.2.1))
    obtain ⟨fout, fks, f1, g1, g2, g3, g4⟩ := front_take_weak hF s.1 _ (eb b1) bo i1 (i3.add hn) h4
    simp only [Block.step, inclusive, h1, Res.ok_bind, g1, Res.pure_eq, Res.ok.injEq,
      Prod.mk.injEq] at he
    obtain ⟨rfl, rfl⟩ := he
    refine ⟨⟨g2, h2, g3⟩, ?_⟩
    rw [← List.map_append]
    refine g4.trans ?_
    rw [vis_append]
    have : vis (ef s.1) (l.map wrap) = l := by
      simp only [vis, List.map_map]
      conv => rhs; rw [← List.map_id l]
      apply List.map_congr_left
      rintro ⟨k, v⟩ he
      have : lk (ef s.1) k = none := by
        cases hx : lk (ef s.1) k with
        | none => rfl
        | some c =>
          exfalso
          obtain ⟨-, c', a2, -⟩ := i3.copy k c hx
          rw [List.map_append, List.nodup_append] at hf
          refine hf.2.2 k ?_ k (List.mem_map.2 ⟨_, he, rfl⟩) rfl
          rw [keys_vis]
          exact hasKey_iff_mem_map.1 (hasKey_iff_lk.2 ⟨c', a2⟩)
      simp [wrap, this, InclCell.new]
    rw [this]
  | flush =>
    obtain ⟨fout, f1, h1, h2, h3, h4⟩ := hF.flush s.1 i1
    obtain ⟨fout', f1', h1', h5, h6⟩ := fF s.1 i1
    rw [h1] at h1'
    cases h1'
    set upd : List (K × InclCell V) := fout.filterMap fun e =>
      if e.2.updated then some (e.1, InclCell.new e.2.value) else none with hupd
    have hupd' : upd = (fout.filter fun e => e.2.updated).map
        (fun e => (e.1, (fun (_ : K) (c : InclCell V) => InclCell.new c.value) e.1 e.2)) := by
      rw [hupd]
      clear hupd upd h1 h4 h6
      induction fout with
      | nil => rfl
      | cons e l ih =>
        rw [List.filterMap_cons, List.filter_cons]
        by_cases he : e.2.updated = true
        · simp only [he, if_true, ih, List.map_cons]
        · simp only [he]
          exact ih
    have nfo : (fout.map Prod.fst).Nodup := (h6.map Prod.fst).nodup_iff.2 i3.nf
    have nup : (upd.map Prod.fst).Nodup := by
      rw [hupd', keys_map (fun (_ : K) (c : InclCell V) => InclCell.new c.value)]
      exact (List.filter_sublist.map _).nodup nfo
    have lup : ∀ k, lk upd k = ((lk (ef s.1) k).filter fun c => c.updated).map
        fun c => InclCell.new c.value := by
      intro k
      rw [hupd', lk_map (fun (_ : K) (c : InclCell V) => InclCell.new c.value), lk_filter nfo,
        lk_perm h6 nfo]
    obtain ⟨bo, ks', b1, g1, g2, g3, g4, g5, g6, -⟩ := hB.takeMultiple s.2 (upd.map Prod.fst) i2
    obtain ⟨r, b2, u1, u2, u3, u4⟩ := hB.push b1 upd g2 (hokB _ nup)
    obtain ⟨out', b3, w1, w2, w3, -⟩ := hB.flush b2 u2
    obtain ⟨out'', b3', w1', w5, w6⟩ := fB b2 u2
    rw [w1] at w1'
    cases w1'
    have hfm : (fout.filterMap fun e => if e.2.updated = true then some (e.1, InclCell.new e.2.value) else none) = upd := rfl
    simp only [Block.step, inclusive, h1, Res.ok_bind, hfm, g1, u1, w1, Res.pure_eq] at he
    by_cases hr : r.length = 0
    · rw [if_pos hr] at he
      cases he
      have hr' : r = [] := List.eq_nil_of_length_eq_zero hr
      subst hr'
      rw [List.append_nil] at u4
      obtain ⟨nb2, lb2⟩ := lk_replace i3.nb nup g4 g5 g6 (w6.trans u4)
      refine ⟨⟨h2, w2, ?_⟩, ?_⟩
      · simp only [h5, w5]; exact ⟨by simp, by simp, by simp⟩
      · simp only [w5, vis, List.map_nil, List.nil_append, Op.given, List.append_nil]
        apply List.Perm.subperm
        have hv := keys_vis (ef s.1) (eb s.2)
        rw [vis] at hv
        refine perm_of_lk ?_ (by rw [hv]; exact i3.nb) ?_
        · have : (out'.map unwrap).map Prod.fst = out'.map Prod.fst := by
            simp [unwrap, Function.comp_def]
          rw [this]; exact nb2
        · intro k
          have := lk_vis (ef s.1) (eb s.2) k
          rw [vis] at this
          rw [this, lk_unwrap, lb2, lup]
          cases hx : lk (ef s.1) k with
          | none => simp
          | some c =>
            obtain ⟨-, c', a2, -, a4⟩ := i3.copy k c hx
            rw [a2]
            cases hu : c.updated with
            | true => simp [Option.filter, hu, InclCell.new]
            | false => simp [Option.filter, hu, a4 hu]
    · rw [if_neg hr] at he
      exact absurd he (by simp)

end

end Inclusive
end Byoc
