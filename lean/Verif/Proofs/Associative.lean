import Verif.Proofs.Batch

/-! # `Associative`: routing invariant, contract except `pop` -/

namespace Byoc

variable {K V : Type}

namespace Associative

/-- Every bucket is valid and holds only elements whose key hashes to it (`j`: index of the first
bucket of the list). -/
def Routed {S : Type} (hash : K → Nat) (n : Nat) (I : S → Prop) (ec : S → List (K × V))
    (j : Nat) (s : List S) : Prop :=
  ∀ i c, s[i]? = some c → I c ∧ ∀ e ∈ ec c, hash e.1 % n = j + i

/-- There is at least one set, and all sets are routed. -/
def Inv {S : Type} (hash : K → Nat) (I : S → Prop) (ec : S → List (K × V)) (s : List S) : Prop :=
  0 < s.length ∧ Routed hash s.length I ec 0 s

theorem routed_cons {S : Type} {hash : K → Nat} {n : Nat} {I : S → Prop} {ec : S → List (K × V)}
    {j : Nat} {c : S} {cs : List S} : Routed hash n I ec j (c :: cs) ↔
      (I c ∧ ∀ e ∈ ec c, hash e.1 % n = j) ∧ Routed hash n I ec (j + 1) cs := by
  constructor
  · intro h
    refine ⟨by simpa using h 0 c (by simp), ?_⟩
    intro i d hd
    have := h (i + 1) d (by simpa using hd)
    refine ⟨this.1, fun e he => ?_⟩
    rw [this.2 e he]; omega
  · rintro ⟨h1, h2⟩ i d hd
    cases i with
    | zero => simp at hd; subst hd; simpa using h1
    | succ i =>
      have := h2 i d (by simpa using hd)
      refine ⟨this.1, fun e he => ?_⟩
      rw [this.2 e he]; omega

theorem Routed.inv {S : Type} {hash : K → Nat} {n : Nat} {I : S → Prop} {ec : S → List (K × V)}
    {j : Nat} {s : List S} (h : Routed hash n I ec j s) : ∀ c ∈ s, I c := by
  intro c hc
  obtain ⟨i, hi, rfl⟩ := List.mem_iff_getElem.1 hc
  exact (h i _ (List.getElem?_eq_getElem hi)).1

theorem flatten_modify {E : Type} (g : List (List E)) (e : E) :
    ∀ i, i < g.length → ((g.modify i (· ++ [e])).flatten).Perm (g.flatten ++ [e]) := by
  induction g with
  | nil => intro i h; simp at h
  | cons a g ih =>
    intro i h
    cases i with
    | zero => simp only [List.modify_zero_cons, List.flatten_cons]; perms []
    | succ i =>
      have := ih i (by simpa using h)
      simp only [List.modify_succ_cons, List.flatten_cons]
      perms [this]

theorem distribute_spec {E : Type} (hash : K → Nat) (key : E → K) (n : Nat) (hn : 0 < n) :
    ∀ (l : List E) (g : List (List E)), g.length = n →
      ∃ G, distribute hash key n l g = .ok G ∧ G.length = n ∧ (G.flatten).Perm (g.flatten ++ l) ∧
        ∀ i, G[i]? = (g[i]?).map (· ++ l.filter (fun e => decide (hash (key e) % n = i))) := by
  intro l
  induction l with
  | nil => intro g hg; exact ⟨g, rfl, hg, by simp, by simp⟩
  | cons e l ih =>
    intro g hg
    have hi : hash (key e) % n < n := Nat.mod_lt _ hn
    obtain ⟨G, h1, h2, h3, h4⟩ := ih (g.modify (hash (key e) % n) (· ++ [e])) (by simp [hg])
    refine ⟨G, ?_, h2, ?_, ?_⟩
    · simp [distribute, set, Nat.ne_of_gt hn, h1]
    · have := flatten_modify g e _ (by rw [hg]; exact hi)
      perms [this, h3]
    · intro i
      rw [h4 i, List.getElem?_modify]
      by_cases hc : hash (key e) % n = i
      · subst hc; simp [Option.map_map, Function.comp_def]
      · simp [hc]

theorem distribute_replicate {E : Type} (hash : K → Nat) (key : E → K) (n : Nat) (hn : 0 < n)
    (l : List E) : ∃ G, distribute hash key n l (List.replicate n []) = .ok G ∧ G.length = n ∧
      (G.flatten).Perm l ∧
      ∀ i g, G[i]? = some g → g = l.filter (fun e => decide (hash (key e) % n = i)) := by
  obtain ⟨G, h1, h2, h3, h4⟩ := distribute_spec hash key n hn l (List.replicate n []) (by simp)
  have hfl : (List.replicate n ([] : List E)).flatten = [] := by simp
  refine ⟨G, h1, h2, by simpa [hfl] using h3, ?_⟩
  intro i g hg
  rw [h4 i, List.getElem?_replicate] at hg
  split at hg <;> simp at hg
  exact hg.symm

section
variable {hash : K → Nat} {C : Block K V} {I : C.State → Prop} {ec : C.State → List (K × V)}

theorem takeMultipleLoop_spec {Pre} (hC : Core C I ec Pre) (n : Nat) :
    ∀ (s : List C.State) (gs : List (List K)) (j : Nat), s.length = gs.length →
      Routed hash n I ec j s →
      (∀ i g, gs[i]? = some g → ∀ k ∈ g, hash k % n = j + i) →
      ∃ out ks' s', takeMultipleLoop C s gs = .ok (out, ks', s') ∧ Routed hash n I ec j s' ∧
        s'.map C.capacity = s.map C.capacity ∧
        (batchElems ec s' ++ out).Perm (batchElems ec s) ∧
        (∀ e ∈ out, e.1 ∈ gs.flatten) ∧
        (∀ k ∈ gs.flatten, HasKey (batchElems ec s) k → HasKey out k) ∧
        ks'.Subperm gs.flatten ∧ (∀ k ∈ gs.flatten, ¬ HasKey out k → k ∈ ks') := by
  intro s
  induction s with
  | nil =>
    intro gs j hl _ _
    have : gs = [] := by simpa using hl.symm
    subst this
    exact ⟨[], [], [], rfl, by intro i c h; simp at h, rfl, by simp, by simp, by simp, by simp,
      by simp⟩
  | cons c cs ih =>
    intro gs j hl hr hg
    cases gs with
    | nil => simp at hl
    | cons g gs =>
      rw [routed_cons] at hr
      have hg0 : ∀ k ∈ g, hash k % n = j := by simpa using hg 0 g (by simp)
      obtain ⟨outs, kss, cs', g1, g2, g3, g4, g5, g6, g7, g8⟩ :=
        ih gs (j + 1) (by simpa using hl) hr.2 (by
          intro i g' hg' k hk
          have := hg (i + 1) g' (by simpa using hg') k hk
          omega)
      have hgs : ∀ k ∈ gs.flatten, hash k % n ≠ j := by
        intro k hk
        obtain ⟨g', hg', hk'⟩ := List.mem_flatten.1 hk
        obtain ⟨i, hi, rfl⟩ := List.mem_iff_getElem.1 hg'
        have := hg (i + 1) gs[i] (by simp [hi]) k hk'
        omega
      have hcs : ∀ k, HasKey (batchElems ec cs) k → hash k % n ≠ j := by
        rintro k ⟨v, hv⟩
        obtain ⟨c', hc', hv'⟩ := List.mem_flatMap.1 hv
        obtain ⟨i, hi, rfl⟩ := List.mem_iff_getElem.1 hc'
        have := (hr.2 i _ (List.getElem?_eq_getElem hi)).2 _ hv'
        simp at this
        omega
      by_cases hge : g = []
      · subst hge
        refine ⟨outs, kss, c :: cs', by simp [takeMultipleLoop, g1], routed_cons.2 ⟨hr.1, g2⟩,
          by simp [g3], ?_, by simpa using g5, ?_, by simpa using g7, by simpa using g8⟩
        · simp only [batchElems_cons]; perms [g4]
        · intro k hk hs
          simp only [List.flatten_cons, List.nil_append] at hk
          simp only [batchElems_cons, hasKey_append] at hs
          rcases hs with ⟨v, hv⟩ | hs
          · exact absurd (hr.1.2 _ hv) (hgs k hk)
          · exact g6 k hk hs
      · obtain ⟨out, ks1, c', h1, h2, h3, h4, h5, h6, h7, h8⟩ := hC.takeMultiple c g hr.1.1
        refine ⟨out ++ outs, ks1 ++ kss, c' :: cs', by simp [takeMultipleLoop, hge, h1, g1],
          routed_cons.2 ⟨⟨h2, ?_⟩, g2⟩, by simp [h3, g3], ?_, ?_, ?_, ?_, ?_⟩
        · intro e he
          exact hr.1.2 e (h4.mem_iff.1 (by simp [he]))
        · simp only [batchElems_cons]; perms [h4, g4]
        · intro e he
          rw [List.flatten_cons, List.mem_append]
          rcases List.mem_append.1 he with he | he
          · exact Or.inl (h5 e he)
          · exact Or.inr (g5 e he)
        · intro k hk hs
          rw [List.flatten_cons, List.mem_append] at hk
          simp only [batchElems_cons, hasKey_append] at hs ⊢
          rcases hk with hk | hk
          · rcases hs with hs | hs
            · exact Or.inl (h6 k hk hs)
            · exact absurd (hg0 k hk) (hcs k hs)
          · rcases hs with ⟨v, hv⟩ | hs
            · exact absurd (hr.1.2 _ hv) (hgs k hk)
            · exact Or.inr (g6 k hk hs)
        · rw [List.flatten_cons]
          subperms [h7, g7] []
        · intro k hk hn
          rw [List.flatten_cons, List.mem_append] at hk
          rw [hasKey_append, not_or] at hn
          rw [List.mem_append]
          rcases hk with hk | hk
          · exact Or.inl (h8 k hk hn.1)
          · exact Or.inr (g8 k hk hn.2)

theorem pushLoop_spec {Pre : List (K × V) → Prop} (hC : Core C I ec Pre) (n : Nat) :
    ∀ (s : List C.State) (gs : List (List (K × V))) (j : Nat), s.length = gs.length →
      Routed hash n I ec j s → (∀ g ∈ gs, Pre g) →
      (∀ i g, gs[i]? = some g → ∀ e ∈ g, hash e.1 % n = j + i) →
      ∃ out s', pushLoop C s gs = .ok (out, s') ∧ Routed hash n I ec j s' ∧
        s'.map C.capacity = s.map C.capacity ∧
        (batchElems ec s' ++ out).Perm (batchElems ec s ++ gs.flatten) := by
  intro s
  induction s with
  | nil =>
    intro gs j hl _ _ _
    have : gs = [] := by simpa using hl.symm
    subst this
    exact ⟨[], [], rfl, by intro i c h; simp at h, rfl, by simp⟩
  | cons c cs ih =>
    intro gs j hl hr hp hg
    cases gs with
    | nil => simp at hl
    | cons g gs =>
      rw [routed_cons] at hr
      have hg0 : ∀ e ∈ g, hash e.1 % n = j := by
        have := hg 0 g (by simp)
        simpa using this
      obtain ⟨outs, cs', g1, g2, g3, g4⟩ :=
        ih gs (j + 1) (by simpa using hl) hr.2 (fun g' h' => hp g' (by simp [h'])) (by
          intro i g' hg' k hk
          have := hg (i + 1) g' (by simpa using hg') k hk
          omega)
      obtain ⟨out, c', h1, h2, h3, h4⟩ := hC.push c g hr.1.1 (hp g (by simp))
      refine ⟨out ++ outs, c' :: cs', by simp [pushLoop, h1, g1], routed_cons.2 ⟨⟨h2, ?_⟩, g2⟩,
        by simp [h3, g3], ?_⟩
      · intro e he
        rcases List.mem_append.1 (h4.mem_iff.1 (List.mem_append_left out he)) with h | h
        · exact hr.1.2 e h
        · exact hg0 e h
      · simp only [batchElems_cons, List.flatten_cons]; perms [h4, g4]

/-- Flushing keeps buckets routed. -/
theorem flush_routed {Pre} (hC : Core C I ec Pre) (n : Nat) :
    ∀ (s : List C.State) (j : Nat) (out : List (K × V)) (s' : List C.State),
      Routed hash n I ec j s → Batch.flush C s = .ok (out, s') → Routed hash n I ec j s' := by
  intro s
  induction s with
  | nil =>
    intro j out s' _ h
    simp [Batch.flush] at h
    rw [h.2]; intro i c hc; simp at hc
  | cons c cs ih =>
    intro j out s' hr h
    rw [routed_cons] at hr
    obtain ⟨o, c', h1, h2, h3, h4⟩ := hC.flush c hr.1.1
    obtain ⟨os, cs', g1, -⟩ := Batch.flush_spec hC cs hr.2.inv
    simp only [Batch.flush, h1, g1, Res.ok_bind, Res.pure_eq, Res.ok.injEq, Prod.mk.injEq] at h
    rw [← h.2]
    refine routed_cons.2 ⟨⟨h2, fun e he => hr.1.2 e (h4.mem_iff.1 (by simp [he]))⟩, ?_⟩
    exact ih _ _ _ hr.2 g1

theorem batchElems_set {S : Type} {ec : S → List (K × V)} {c : S} (c' : S) :
    ∀ {s : List S} {i : Nat}, s[i]? = some c → 
      ∃ a b, batchElems ec s = a ++ (ec c ++ b) ∧ batchElems ec (s.set i c') = a ++ (ec c' ++ b) := by
  intro s
  induction s with
  | nil => intro i h; simp at h
  | cons d s ih =>
    intro i h
    cases i with
    | zero =>
      simp at h; subst h
      exact ⟨[], batchElems ec s, by simp, by simp⟩
    | succ i =>
      obtain ⟨a, b, h1, h2⟩ := ih (by simpa using h)
      exact ⟨ec d ++ a, b, by simp [h1], by simp [h2]⟩

theorem map_set_same {S : Type} {f : S → Nat} {c c' : S} (hf : f c' = f c) :
    ∀ {s : List S} {i : Nat}, s[i]? = some c → (s.set i c').map f = s.map f := by
  intro s i h
  obtain ⟨hi, rfl⟩ := List.getElem?_eq_some_iff.1 h
  apply List.ext_getElem?
  intro j
  simp only [List.getElem?_map, List.getElem?_set]
  split
  · rename_i hij; subst hij; simp [hi, hf]
  · rfl

theorem routed_set {S : Type} {n : Nat} {I : S → Prop} {ec : S → List (K × V)} {j : Nat}
    {s : List S} {i : Nat} {c c' : S} (hr : Routed hash n I ec j s) (hc : s[i]? = some c)
    (hI : I c') (hs : ∀ e ∈ ec c', e ∈ ec c) : Routed hash n I ec j (s.set i c') := by
  intro i' d hd
  rw [List.getElem?_set] at hd
  split at hd
  · rename_i hii
    subst hii
    split at hd
    · simp at hd; subst hd
      exact ⟨hI, fun e he => (hr i c hc).2 e (hs e he)⟩
    · simp at hd
  · exact hr i' d hd

/-- A stored key is stored in its own set. -/
theorem hasKey_iff {S : Type} {I : S → Prop} {ec : S → List (K × V)} {s : List S}
    (h : Inv hash I ec s) {k : K} {c : S} (hc : s[hash k % s.length]? = some c) :
    HasKey (batchElems ec s) k ↔ HasKey (ec c) k := by
  constructor
  · rintro ⟨v, hv⟩
    obtain ⟨d, hd, hv'⟩ := List.mem_flatMap.1 hv
    obtain ⟨i, hi, rfl⟩ := List.mem_iff_getElem.1 hd
    have := (h.2 i _ (List.getElem?_eq_getElem hi)).2 _ hv'
    simp at this
    rw [this, List.getElem?_eq_getElem hi] at hc
    simp at hc
    exact ⟨v, hc ▸ hv'⟩
  · rintro ⟨v, hv⟩
    exact ⟨v, List.mem_flatMap.2 ⟨c, List.mem_of_getElem? hc, hv⟩⟩

theorem getSet {S : Type} {I : S → Prop} {ec : S → List (K × V)} {s : List S}
    (h : Inv hash I ec s) (k : K) : ∃ c, s[hash k % s.length]? = some c ∧ I c ∧
      set hash s.length k = .ok (hash k % s.length) := by
  have hi : hash k % s.length < s.length := Nat.mod_lt _ h.1
  exact ⟨s[hash k % s.length], by simp [hi], (h.2 _ _ (List.getElem?_eq_getElem hi)).1,
    by simp [set, Nat.ne_of_gt h.1]⟩

end

end Associative

open Associative in
theorem associative_core {hash : K → Nat} {C : Block K V} {I : C.State → Prop}
    {ec : C.State → List (K × V)} {Pre : List (K × V) → Prop} (hC : Core C I ec Pre)
    (hPre : ∀ l p, Pre l → Pre (l.filter p)) :
    Core (associative hash C) (Inv hash I ec) (batchElems ec) Pre where
  bounded := by
    intro (s : List C.State) h
    have h' := h.2.inv
    change (s.map C.size).sum ≤ (s.map C.capacity).sum
    clear h
    induction s with
    | nil => simp
    | cons c cs ih =>
      have := ih (fun d hd => h' d (by simp [hd]))
      have := hC.bounded c (h' c (by simp))
      simp; omega
  empty_size := by
    intro (s : List C.State) h he
    have h' := h.2.inv
    change (s.map C.size).sum = 0
    clear h
    induction s with
    | nil => simp
    | cons c cs ih =>
      simp only [batchElems_cons, List.append_eq_nil_iff] at he
      have := ih he.2 (fun d hd => h' d (by simp [hd]))
      have := hC.empty_size c (h' c (by simp)) he.1
      simp; omega
  contains := by
    intro (s : List C.State) k h
    obtain ⟨c, hc, hI, hset⟩ := getSet h k
    obtain ⟨b, c', h1, h2, h3, h4, h5, h6⟩ := hC.contains c k hI
    refine ⟨b, s.set (hash k % s.length) c', ?_, ⟨by simpa using h.1, ?_⟩, ?_, ?_, ?_, ?_⟩
    · simp [associative, hset, hc, h1]
    · have := routed_set h.2 hc h2 (by rw [h5]; exact fun e he => he)
      simpa using this
    · simp only [associative]; rw [map_set_same h3 hc]
    · simp only [associative]; rw [map_set_same h4 hc]
    · obtain ⟨x, y, e1, e2⟩ := batchElems_set (ec := ec) c' hc
      rw [e2, e1, h5]
    · rw [h6, hasKey_iff h hc]
  take := by
    intro (s : List C.State) k h
    obtain ⟨c, hc, hI, hset⟩ := getSet h k
    obtain ⟨o, c', h1, h2, h3, h4⟩ := hC.take c k hI
    obtain ⟨x, y, e1, e2⟩ := batchElems_set (ec := ec) c' hc
    have hsub : ∀ e ∈ ec c', e ∈ ec c := by
      intro e he
      cases o with
      | none => exact h4.2.mem_iff.1 he
      | some e' => exact h4.2.mem_iff.1 (List.mem_cons_of_mem _ he)
    refine ⟨o, s.set (hash k % s.length) c', ?_, ⟨by simpa using h.1, ?_⟩, ?_, ?_⟩
    · simp [associative, hset, hc, h1]
    · have := routed_set h.2 hc h2 hsub
      simpa using this
    · simp only [associative]; rw [map_set_same h3 hc]
    · cases o with
      | none =>
        simp only at h4 ⊢
        rw [hasKey_iff h hc]
        refine ⟨h4.1, ?_⟩
        rw [e2, e1]; perms [h4.2]
      | some e =>
        refine ⟨h4.1, ?_⟩
        rw [e2, e1]; perms [h4.2]
  takeMultiple := by
    intro (s : List C.State) ks h
    obtain ⟨G, d1, d2, d3, d4⟩ := distribute_replicate hash id s.length h.1 ks
    obtain ⟨out, ks', s', h1, h2, h3, h4, h5, h6, h7, h8⟩ :=
      takeMultipleLoop_spec (hash := hash) hC s.length s G 0 d2.symm h.2 (by
        intro i g hg k hk
        rw [d4 i g hg] at hk
        simpa using (List.mem_filter.1 hk).2)
    have hlen : s'.length = s.length := by
      have := congrArg List.length h3; simpa using this
    refine ⟨out, ks', s', ?_, ⟨by rw [hlen]; exact h.1, by rw [hlen]; exact h2⟩, ?_, h4, ?_, ?_, ?_, ?_⟩
    · simp [associative, Associative.takeMultiple, d1, h1]
    · simp [associative, h3]
    · intro e he; exact d3.mem_iff.1 (h5 e he)
    · intro k hk; exact h6 k (d3.mem_iff.2 hk)
    · exact h7.trans d3.subperm
    · intro k hk; exact h8 k (d3.mem_iff.2 hk)
  push := by
    intro (s : List C.State) l h hp
    obtain ⟨G, d1, d2, d3, d4⟩ := distribute_replicate hash Prod.fst s.length h.1 l
    obtain ⟨out, s', h1, h2, h3, h4⟩ :=
      pushLoop_spec (hash := hash) hC s.length s G 0 d2.symm h.2 (by
        intro g hg
        obtain ⟨i, hi, rfl⟩ := List.mem_iff_getElem.1 hg
        rw [d4 i _ (List.getElem?_eq_getElem hi)]
        exact hPre l _ hp) (by
        intro i g hg k hk
        rw [d4 i g hg] at hk
        simpa using (List.mem_filter.1 hk).2)
    have hlen : s'.length = s.length := by
      have := congrArg List.length h3; simpa using this
    refine ⟨out, s', ?_, ⟨by rw [hlen]; exact h.1, by rw [hlen]; exact h2⟩, ?_, ?_⟩
    · simp [associative, Associative.push, d1, h1]
    · simp [associative, h3]
    · perms [h4, d3]
  flush := by
    intro (s : List C.State) h
    obtain ⟨out, s', h1, h2, h3, h4⟩ := Batch.flush_spec hC s h.2.inv
    have hlen : s'.length = s.length := by
      have := congrArg List.length h3; simpa using this
    refine ⟨out, s', h1, ⟨by rw [hlen]; exact h.1, by
      rw [hlen]; exact flush_routed hC _ s 0 out s' h.2 h1⟩, ?_, h4⟩
    simp [associative, h3]

open Associative in
theorem associative_flushes {hash : K → Nat} {C : Block K V} {I : C.State → Prop}
    {ec : C.State → List (K × V)} (fC : Flushes C I ec) :
    Flushes (associative hash C) (Inv hash I ec) (batchElems ec) :=
  fun s h => Batch.flush_empties fC s h.2.inv

open Associative in
theorem associative_strict {hash : K → Nat} {C : Block K V} {I : C.State → Prop}
    {ec : C.State → List (K × V)} (sC : Strict C I) :
    Strict (associative hash C) (Inv hash I ec) := by
  have loop : ∀ (s : List C.State) (gs : List (List K)) out ks' s', (∀ c ∈ s, I c) →
      takeMultipleLoop C s gs = .ok (out, ks', s') →
      (out.map Prod.fst ++ ks').Subperm gs.flatten := by
    intro s
    induction s with
    | nil =>
      intro gs out ks' s' _ he
      simp only [takeMultipleLoop, Res.ok.injEq, Prod.mk.injEq] at he
      obtain ⟨rfl, rfl, rfl⟩ := he
      simp
    | cons c cs ih =>
      intro gs out ks' s' h he
      cases gs with
      | nil =>
        simp only [takeMultipleLoop, Res.ok.injEq, Prod.mk.injEq] at he
        obtain ⟨rfl, rfl, rfl⟩ := he
        simp
      | cons g gs =>
        simp only [takeMultipleLoop] at he
        by_cases hg : g = []
        · rw [if_pos hg] at he
          cases h2 : takeMultipleLoop C cs gs with
          | panic => simp [h2] at he
          | ok r =>
            obtain ⟨o2, k2, cs'⟩ := r
            simp only [h2, Res.ok_bind, Res.pure_eq, Res.ok.injEq, Prod.mk.injEq] at he
            obtain ⟨rfl, rfl, rfl⟩ := he
            have := ih _ _ _ _ (fun d hd => h d (by simp [hd])) h2
            simpa [hg] using this
        · rw [if_neg hg] at he
          cases h1 : C.takeMultiple c g with
          | panic => simp [h1] at he
          | ok r =>
            obtain ⟨o1, k1, c'⟩ := r
            simp only [h1, Res.ok_bind] at he
            cases h2 : takeMultipleLoop C cs gs with
            | panic => simp [h2] at he
            | ok r =>
              obtain ⟨o2, k2, cs'⟩ := r
              simp only [h2, Res.ok_bind, Res.pure_eq, Res.ok.injEq, Prod.mk.injEq] at he
              obtain ⟨rfl, rfl, rfl⟩ := he
              have e1 := sC _ _ _ _ _ (h c (by simp)) h1
              have e2 := ih _ _ _ _ (fun d hd => h d (by simp [hd])) h2
              rw [List.map_append, List.flatten_cons]
              subperms [e1, e2] []
  intro (s : List C.State) ks out ks' s' h he
  obtain ⟨G, d1, d2, d3, d4⟩ := distribute_replicate hash id s.length h.1 ks
  simp only [associative, Associative.takeMultiple, d1, Res.ok_bind] at he
  exact (loop _ _ _ _ _ h.2.inv he).trans d3.subperm

end Byoc
