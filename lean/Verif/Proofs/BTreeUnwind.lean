import Verif.Model.BTreeUnwind
import Verif.Proofs.UnwindMore
import Verif.Proofs.StoreUnwind
import Verif.Proofs.Get

/-! # What panics in the accesses of a `BTree` leave -/

namespace Byoc.Unwind

open M

variable {K V : Type} [LinearOrder K] [LinearOrder V]

theorem M.bind_run {σ α β : Type} {m : M σ α} {g : α → M σ β} {w w1 : Fates} {s s1 : σ} {a : α}
    (h : m.run w s = (some a, w1, s1)) : (m >>= g).run w s = (g a).run w1 s1 := by
  show (match m.run w s with
    | (some a, w, s) => (g a).run w s
    | (none, w, s) => (none, w, s)) = _
  rw [h]

theorem M.bind_run_none {σ α β : Type} {m : M σ α} {g : α → M σ β} {w w1 : Fates} {s s1 : σ}
    (h : m.run w s = (none, w1, s1)) : (m >>= g).run w s = (none, w1, s1) := by
  show (match m.run w s with
    | (some a, w, s) => (g a).run w s
    | (none, w, s) => (none, w, s)) = _
  rw [h]

theorem btreeUse_agrees (sz : K × V → Nat) (k : K) (f : V → V) (half : Nat → V → V) (t : BTree K V) :
    (btreeUse sz k f half).res t = t.getMut sz k f := by
  unfold btreeUse BTree.getMut
  rw [res_bind, btreeTake_agrees]
  cases h : t.take sz k with
  | panic => rfl
  | ok p =>
    obtain ⟨o, t1⟩ := p
    simp only [Res.ok_bind]
    cases o with
    | none => rfl
    | some e =>
      obtain ⟨k', v⟩ := e
      simp only [res_bind, res_useCell, Res.ok_bind, btreePush_agrees]
      cases h2 : t1.push sz [(k', f v)] with
      | panic => rfl
      | ok p2 =>
        obtain ⟨out, t2⟩ := p2
        simp only [Res.ok_bind]
        split <;> rfl

/-- A `push` of one element that is not there and fits panics before it changes anything. -/
theorem btreePush_one_esc (sz : K × V → Nat) {t : BTree K V} {k : K} {x : V} (hk : ¬ HasKey t.map k)
    (hc : sz (k, x) ≤ t.capacity) (hfit : t.totalSize + sz (k, x) ≤ t.capacity) :
    (btreePush sz [(k, x)]).Esc t fun t' => t' = t := by
  unfold btreePush
  refine esc_withState (esc_bind (esc_user rfl) fun _ s1 h1 => ?_)
  have : s1 = t := by rw [res_user] at h1; cases h1; rfl
  subst this
  have ht : total sz [(k, x)] = sz (k, x) := by simp
  have hcap : (s1.flush.2.insertUnchecked [(k, x)]).capacity = s1.capacity := rfl
  simp only [ht]
  split
  · rw [if_neg (by omega)]
    exact esc_set_bind (esc_pure _ _ _)
  · have hn : mapRemove s1.map k = (none, (mapRemove s1.map k).2) := by
      have : (mapRemove s1.map k).1 = none := by
        simp only [mapRemove, Option.map_eq_none_iff, List.find?_eq_none, decide_eq_true_eq]
        intro e he h
        exact hk ⟨e.2, h ▸ he⟩
      rw [← this]
    have ht1 : (btreeTake sz k).Esc s1 fun t' => t' = s1 := by
      unfold btreeTake
      apply esc_withState
      rw [hn]
      exact esc_pure _ _ _
    have ht2 : s1.take sz k = .ok (none, s1) := by unfold BTree.take; rw [hn]
    refine esc_bind (E := fun t' => t' = s1) ?_ fun out s2 h2 => ?_
    · refine esc_bind ht1 fun o s2 h2 => ?_
      exact esc_bind (esc_pure _ _ _) fun _ _ _ => esc_pure _ _ _
    · have h2' : (defaultTakeMultiple (btreeTake sz) [k]).res s1 = .ok (out, s2) := h2
      have h3 : Byoc.defaultTakeMultiple (BTree.take sz) s1 [k] = .ok ([], s1) := by
        unfold Byoc.defaultTakeMultiple
        rw [ht2]
        rfl
      rw [btreeTakes_agrees, h3] at h2'
      obtain ⟨rfl, rfl⟩ := Prod.mk.inj (Res.ok.inj h2')
      refine esc_withState (esc_ofRes_bind rfl fun room hr => ?_)
      rw [Res.sub_ok (by omega)] at hr
      cases hr
      rw [if_neg (by omega)]
      exact esc_bind (esc_pure _ _ _) fun _ _ _ => esc_withState (esc_set_bind (esc_pure _ _ _))

/-- **What an access that panics leaves.** -/
theorem btreeUse_panics (sz : K × V → Nat) (hpos : ∀ e, 0 < sz e) {t t' : BTree K V} (hI : BTree.Inv sz t) {k : K}
    {f : V → V} {half : Nat → V → V} (hf : ∀ k v, sz (k, f v) = sz (k, v)) (hh : ∀ n k v, sz (k, half n v) = sz (k, v))
    {w w' : Fates} (h : (btreeUse sz k f half).run w t = (none, w', t')) :
    ∃ v, (k, v) ∈ t.map ∧
      ((∃ n w1, w = some n :: w1 ∧ t' = { t with map := (mapRemove t.map k).2 }) ∨
        (∃ n w1, w = none :: some n :: w1 ∧ t.getMut sz k (half n) = .ok (some v, t')) ∨
        ((∀ n w1, w ≠ none :: some n :: w1) ∧ t.take sz k = .ok (some (k, v), t'))) := by
  have hL := BTree.getLawful (V := V) sz hpos
  obtain ⟨o, t1, h1, h2, h3, h4, h5, h6⟩ := BTree.take_spec sz t k hI.1
  cases o with
  | none =>
    exfalso
    have hn : mapRemove t.map k = (none, (mapRemove t.map k).2) := by
      have : (mapRemove t.map k).1 = none := by
        simp only [mapRemove, Option.map_eq_none_iff, List.find?_eq_none, decide_eq_true_eq]
        intro e he h
        exact h6.1 ⟨e.2, h ▸ he⟩
      rw [← this]
    have ht : (btreeTake sz k).run w t = (some none, w, t) := by
      show (match mapRemove t.map k with
        | (none, _) => (pure none : M (BTree K V) _)
        | (some v, map) => _).run w t = _
      rw [hn]
      rfl
    have : (btreeUse sz k f half).run w t = (some none, w, t) := M.bind_run ht
    rw [this] at h
    simp at h
  | some e =>
    obtain ⟨k', v⟩ := e
    obtain ⟨hk, hp⟩ := h6
    simp only at hk
    subst hk
    have hnk : ¬ HasKey t1.map k' := by
      have hn := ((hp.map Prod.fst).nodup_iff).2 hI.1.nodup
      simp only [List.map_cons, List.nodup_cons] at hn
      rw [hasKey_iff_mem_map]; exact hn.1
    have ht := total_perm sz hp
    rw [total_cons] at ht
    have hs := hI.1.size
    have hs1 := h2.size
    have hb := hI.2
    refine ⟨v, hp.mem_iff.1 (by simp), ?_⟩
    rcases hm : mapRemove t.map k' with ⟨o, m⟩
    have ho : o = some v := by
      cases o with
      | none => simp only [BTree.take, hm] at h1; simp at h1
      | some v' =>
        simp only [BTree.take, hm] at h1
        cases hr : Res.sub t.totalSize (sz (k', v')) with
        | panic => rw [hr] at h1; simp at h1
        | ok r => rw [hr] at h1; simp at h1; rw [h1.1]
    subst ho
    have hrest : ∀ w2, (∀ n w1, w ≠ none :: some n :: w1) → (∀ n w1, w2 ≠ some n :: w1) →
        (btreeUse sz k' f half).run w t = (do
          let v' ← useCell f half v (btreeSave sz k')
          let out ← btreePush sz [(k', v')]
          if out = [] then return some v else fail : M (BTree K V) (Option V)).run w2 t1 →
        (∀ n w1, w ≠ none :: some n :: w1) ∧ t.take sz k' = .ok (some (k', v), t') := by
      intro w2 hw hw2 he
      refine ⟨hw, ?_⟩
      have hcell : ∃ w3, (useCell f half v (btreeSave sz k')).run w2 t1 = (some (f v), w3, t1) := by
        match w2 with
        | [] => exact ⟨_, rfl⟩
        | none :: w3 => exact ⟨_, rfl⟩
        | some n :: w3 => exact absurd rfl (hw2 n w3)
      obtain ⟨w3, hcell⟩ := hcell
      rw [he, M.bind_run hcell] at h
      have hp1 := btreePush_one_esc sz (t := t1) (x := f v) hnk (by rw [hf]; omega) (by rw [hf]; omega)
      rcases hr : (btreePush sz [(k', f v)]).run w3 t1 with ⟨o, w4, t4⟩
      cases o with
      | none =>
        rw [M.bind_run_none hr] at h
        have : t' = t1 := by rw [← hp1 _ _ _ hr]; exact ((Prod.ext_iff.1 (Prod.ext_iff.1 h).2).2).symm
        rw [this, h1]
      | some out =>
        exfalso
        rw [M.bind_run hr] at h
        obtain ⟨o, t5, g1, -⟩ := hL.getMut t k' f hI hf
        have g2 : t.getMut sz k' f = .ok (o, t5) := g1
        unfold BTree.getMut at g2
        rw [h1] at g2
        simp only [Res.ok_bind] at g2
        have h7 := M.res_of_run hr
        rw [btreePush_agrees] at h7
        rw [h7] at g2
        simp only [Res.ok_bind] at g2
        split at g2
        · rename_i hout
          rw [if_pos hout] at h
          simp [pure, M.pure] at h
        · simp at g2
    match w, h, hrest with
    | some n :: w1, h, _ =>
      refine .inl ⟨n, w1, rfl, ?_⟩
      have ht : (btreeTake sz k').run (some n :: w1) t = (none, w1, { t with map := m }) := by
        show (match mapRemove t.map k' with
          | (none, _) => (pure none : M (BTree K V) _)
          | (some v, map) => _).run _ t = _
        rw [hm]
        rfl
      have : (btreeUse sz k' f half).run (some n :: w1) t = _ := M.bind_run_none ht
      rw [this] at h
      exact ((Prod.ext_iff.1 (Prod.ext_iff.1 h).2).2).symm
    | [], h, hrest =>
      refine .inr (.inr (hrest [] (by simp) (by simp) ?_))
      have := M.run_of_res ((btreeTake_agrees sz k' t).trans h1)
      exact M.bind_run this
    | none :: w2, h, hrest =>
      have ht : (btreeTake sz k').run (none :: w2) t = (some (some (k', v)), w2, t1) := by
        have h8 : (btreeTake sz k').run (none :: w2) t = (match mapRemove t.map k' with
          | (none, _) => (pure none : M (BTree K V) (Option (K × V)))
          | (some v, map) => do
            set { t with map := map }
            user
            let total ← ofRes (Res.sub t.totalSize (sz (k', v)))
            set { t with totalSize := total, set := t.set.erase (v, k'), map := map }
            return some (k', v)).run (none :: w2) t := rfl
        rw [h8, hm]
        simp only [BTree.take, hm] at h1
        cases hr : Res.sub t.totalSize (sz (k', v)) with
        | panic => rw [hr] at h1; simp at h1
        | ok r =>
          rw [hr] at h1
          simp at h1
          rw [← h1]
          refine (M.bind_run rfl).trans ((M.bind_run rfl).trans ?_)
          rw [hr]
          rfl
      have hb : ∀ g : Option (K × V) → M (BTree K V) (Option V), (btreeTake sz k' >>= g).run (none :: w2) t = (g (some (k', v))).run w2 t1 :=
        fun g => M.bind_run ht
      by_cases hw : ∃ n w1, w2 = some n :: w1
      · obtain ⟨n, w1, rfl⟩ := hw
        refine .inr (.inl ⟨n, w1, rfl, ?_⟩)
        obtain ⟨o, t5, g1, -⟩ := hL.getMut t k' (half n) hI (hh n)
        have g2 : t.getMut sz k' (half n) = .ok (o, t5) := g1
        have g3 := g2
        unfold BTree.getMut at g3
        rw [h1] at g3
        simp only [Res.ok_bind] at g3
        cases h9 : t1.push sz [(k', half n v)] with
        | panic => rw [h9] at g3; simp at g3
        | ok p =>
          rw [h9] at g3
          simp only [Res.ok_bind] at g3
          split at g3
          · rename_i hout
            obtain ⟨rfl, rfl⟩ := Prod.mk.inj (Res.ok.inj g3)
            have hsave : btreeSave sz k' (half n v) t1 = .ok p.2 := by
              unfold btreeSave
              rw [h9]
              simp only [Res.ok_bind]
              rw [if_pos hout]
              rfl
            have hc : (useCell f half v (btreeSave sz k')).run (some n :: w1) t1 = (none, w1, p.2) := by
              simp only [useCell, hsave]
            have : (btreeUse sz k' f half).run (none :: some n :: w1) t = (none, w1, p.2) :=
              (hb _).trans (M.bind_run_none hc)
            rw [this] at h
            have e := (Prod.ext_iff.1 (Prod.ext_iff.1 h).2).2
            simp only at e
            rw [g2, e]
          · simp at g3
      · exact .inr (.inr (hrest w2 (by simpa using hw) (by simpa using hw) (hb _)))

end Byoc.Unwind
