import Verif.Proofs.Recent
import Verif.Proofs.ByteStreamOps
import Verif.Proofs.Exchange
import Verif.Props.CacheProps

/-!
# A policy in memory over a container which refuses what does not fit

`Exclusive` with containers in tiers in front and, behind, a container which hands back what it has no room
for (a `Stream`), decorated with `Lru`.
-/

namespace Byoc.Spill

open Policy PolicyProps Textbook

variable {K V T : Type} [LinearOrder K]

/-- A memory of `n` keys, the last used first, over a store of `m` keys which never evicts: a key found in
the memory is put first; any other key requested is put first in the memory, leaves the store if it was
there, and the key falling out of the memory goes to the store if there is room, and is lost otherwise. -/
def spillStep (n m : Nat) (s : List K × List K) (k : K) : List K × List K :=
  if k ∈ s.1 then (k :: s.1.erase k, s.2)
  else ((k :: s.1).take n, (s.2.erase k ++ (k :: s.1).drop n).take m)

/-- A container of at most `m` elements which takes in elements that `Fit` as long as there are fewer, and
hands them back afterwards. -/
structure Shelf {I : Type} (B : Block K I) (Ib : B.State → Prop) (eb : B.State → List (K × I))
    (Fit : K × I → Prop) (m : Nat) : Prop where
  room : ∀ s, Ib s → (eb s).length ≤ m
  take : ∀ s k, Ib s → ∃ o s', B.take s k = .ok (o, s') ∧ Ib s' ∧
    match o with
    | none => ¬ HasKey (eb s) k ∧ (eb s').Perm (eb s)
    | some e => e.1 = k ∧ (e :: eb s').Perm (eb s)
  idle : ∀ s, Ib s → ∃ s', B.push s [] = .ok ([], s') ∧ Ib s' ∧ (eb s').Perm (eb s)
  fits : ∀ s x, Ib s → Fit x → (eb s).length < m →
    ∃ s', B.push s [x] = .ok ([], s') ∧ Ib s' ∧ (eb s').Perm (eb s ++ [x])
  full : ∀ s x, Ib s → Fit x → ¬ (eb s).length < m →
    ∃ s', B.push s [x] = .ok ([x], s') ∧ Ib s' ∧ (eb s').Perm (eb s)

section
variable {I : Type} {B : Block K I} {Ib : B.State → Prop} {eb : B.State → List (K × I)}
  {Fit : K × I → Prop} {m : Nat}

omit [LinearOrder K] in
/-- At most one element is pushed. -/
theorem Shelf.push (h : Shelf B Ib eb Fit m) {g : K → K × I} {s : B.State} {b c : List K} (hs : Ib s)
    (hb : (eb s).Perm (b.map g)) (hc : c.length ≤ 1) (hfit : ∀ k ∈ c, Fit (g k)) :
    ∃ o s', B.push s (c.map g) = .ok (o, s') ∧ Ib s' ∧ (eb s').Perm (((b ++ c).take m).map g) ∧
      (b.length + c.length ≤ m → o = []) := by
  have hl := h.room s hs
  have hlb : (eb s).length = b.length := by rw [hb.length_eq, List.length_map]
  rcases small_list hc with rfl | ⟨x, rfl⟩
  · obtain ⟨s', h1, h2, h3⟩ := h.idle s hs
    refine ⟨[], s', h1, h2, ?_, fun _ => rfl⟩
    rw [List.append_nil, List.take_of_length_le (by omega)]
    exact h3.trans hb
  · by_cases hr : (eb s).length < m
    · obtain ⟨s', h1, h2, h3⟩ := h.fits s (g x) hs (hfit x (by simp)) hr
      refine ⟨[], s', h1, h2, ?_, fun _ => rfl⟩
      rw [List.take_of_length_le (by simp; omega), List.map_append]
      exact h3.trans (hb.append_right _)
    · obtain ⟨s', h1, h2, h3⟩ := h.full s (g x) hs (hfit x (by simp)) hr
      refine ⟨[g x], s', h1, h2, ?_, fun hle => ?_⟩
      · rw [List.take_left' (by omega)]
        exact h3.trans hb
      · simp at hle; omega

end

/-! ## The front -/

/-- The element stored for a key last used at the reading `τ k` of the clock. -/
def cellOf (clock : Nat → T) (fetch : K → V) (τ : K → Nat) (k : K) : K × LruCell V T :=
  (k, ⟨fetch k, clock (τ k)⟩)

omit [LinearOrder K] in
theorem mem_cells {clock : Nat → T} {fetch : K → V} {τ : K → Nat} {f : List K} {k : K} {c : LruCell V T} :
    (k, c) ∈ f.map (cellOf clock fetch τ) ↔ k ∈ f ∧ c = ⟨fetch k, clock (τ k)⟩ := by
  simp only [List.mem_map, cellOf, Prod.mk.injEq]
  constructor
  · rintro ⟨a, h1, rfl, rfl⟩; exact ⟨h1, rfl⟩
  · rintro ⟨h1, rfl⟩; exact ⟨k, h1, rfl, rfl⟩

omit [LinearOrder K] in
theorem hasKey_cells {clock : Nat → T} {fetch : K → V} {τ : K → Nat} {f : List K} {k : K} :
    HasKey (f.map (cellOf clock fetch τ)) k ↔ k ∈ f := by
  constructor
  · rintro ⟨v, hv⟩; exact (mem_cells.1 hv).1
  · intro h; exact ⟨_, mem_cells.2 ⟨h, rfl⟩⟩

omit [LinearOrder K] in
theorem keys_cells {clock : Nat → T} {fetch : K → V} {τ : K → Nat} {f : List K} :
    (f.map (cellOf clock fetch τ)).map Prod.fst = f := by
  simp [cellOf, Function.comp_def]

theorem cells_update {clock : Nat → T} {fetch : K → V} {τ : K → Nat} {f : List K} {k : K} {j : Nat}
    (hk : k ∉ f) : f.map (cellOf clock fetch (Function.update τ k j)) = f.map (cellOf clock fetch τ) := by
  refine List.map_congr_left fun x hx => ?_
  have : x ≠ k := fun h => hk (h ▸ hx)
  simp [cellOf, Function.update_of_ne this]

theorem cell_update {clock : Nat → T} {fetch : K → V} {τ : K → Nat} {k : K} {j : Nat} :
    cellOf clock fetch (Function.update τ k j) k = (k, ⟨fetch k, clock j⟩) := by
  simp [cellOf]

/-- The last one of the memory falls out. -/
theorem front_push [LinearOrder T] {clock : Nat → T} (hm : StrictMono clock) {fetch : K → V} {τ : K → Nat}
    {t : Stack K (LruCell V T)} (ht : t.Tiered) {s : t.block.State} {f : List K} {k : K} {n : Nat}
    (hs : t.Inv True s) (ho : t.Ordered s) (hcap : t.block.capacity s = n) (hn : 0 < n)
    (hp : (t.elems s).Perm (f.map (cellOf clock fetch τ))) (hf : f.Pairwise (fun x y => τ y < τ x))
    (hlen : f.length ≤ n) (hk : k ∉ f) :
    ∃ s', t.block.push s [cellOf clock fetch τ k] =
        .ok (((k :: f).drop n).map (cellOf clock fetch τ), s') ∧ t.Inv True s' ∧
      t.block.capacity s' = n ∧ t.OrderedX k s' ∧ ((∀ y ∈ f, τ y < τ k) → t.Ordered s') ∧
      (t.elems s').Perm (((k :: f).take n).map (cellOf clock fetch τ)) := by
  obtain ⟨w1, w2, w3, -⟩ := Stack.Tiered.shape t ht
  have hL := t.lawful True w1 w2
  have hS := t.slots True w1 w3
  obtain ⟨out, s', h1, h2, h3, -⟩ := hL.push s [cellOf clock fetch τ k] hs trivial
  have hnk : ¬ HasKey (t.elems s) k := by
    rintro ⟨v, hv⟩
    exact hk (mem_cells.1 (hp.mem_iff.1 hv)).1
  obtain ⟨m1, m2⟩ := (t.moves ht).push s _ out s' hs ho (by omega) hnk h1
  obtain ⟨kept, k1, k2⟩ := hS.pushOne s _ out s' hs (by omega) h1
  have hlen' : (t.elems s).length = f.length := by rw [hp.length_eq, List.length_map]
  have hex := hS.pushExact s _ out s' hs h1
  rw [hS.size s hs, hcap, hlen'] at hex
  simp only [List.length_cons, List.length_nil, Nat.zero_add] at hex
  have hord : (∀ y ∈ f, τ y < τ k) → t.Ordered s' := by
    intro hy
    refine ((t.aged True ht).push s _ out s' hs ho ?_ h1).1
    intro x hx y hy'
    rw [List.mem_singleton.1 hx]
    obtain ⟨yk, yc⟩ := y
    obtain ⟨q1, rfl⟩ := mem_cells.1 (hp.mem_iff.1 hy')
    rw [lru_le]
    exact hm.monotone (hy yk q1).le
  rcases Nat.lt_or_ge f.length n with hlt | hge
  · have : out = [] := List.eq_nil_of_length_eq_zero (by omega)
    subst this
    have hd : (k :: f).drop n = [] := List.drop_eq_nil_of_le (by simp; omega)
    have htk : (k :: f).take n = k :: f := List.take_of_length_le (by simp; omega)
    refine ⟨s', by rw [hd]; exact h1, h2, h3.trans hcap, m1, hord, ?_⟩
    rw [htk]
    rw [List.append_nil] at k2
    exact k1.trans (((k2.trans hp)).cons _)
  · have hfn : f.length = n := by omega
    have hne : f ≠ [] := by rintro rfl; simp at hfn; omega
    obtain ⟨p, w, rfl⟩ : ∃ p w, f = p ++ [w] := ⟨f.dropLast, f.getLast hne, (List.dropLast_append_getLast hne).symm⟩
    have hpn : p.length + 1 = n := by simpa using hfn
    obtain ⟨z, rfl⟩ : ∃ z, out = [z] := List.length_eq_one_iff.1 (by omega)
    have hz : z ∈ (p ++ [w]).map (cellOf clock fetch τ) :=
      hp.mem_iff.1 (k2.mem_iff.1 (by simp))
    obtain ⟨zk, hzk, rfl⟩ := List.mem_map.1 hz
    have hzw : zk = w := by
      rcases List.mem_append.1 hzk with hzp | hzw
      · exfalso
        have hlt : τ w < τ zk := (List.pairwise_append.1 hf).2.2 zk hzp w (by simp)
        have hwz : w ≠ zk := by rintro rfl; omega
        have hw : cellOf clock fetch τ w ∈ kept := by
          have : cellOf clock fetch τ w ∈ t.elems s := hp.mem_iff.2 (List.mem_map_of_mem (by simp))
          rcases List.mem_append.1 (k2.mem_iff.2 this) with h | h
          · exact h
          · exact absurd (congrArg Prod.fst (List.mem_singleton.1 h)) hwz
        have hwk : w ≠ k := by rintro rfl; exact hk (by simp)
        have := m2 _ (by simp : cellOf clock fetch τ zk ∈ [cellOf clock fetch τ zk]) _
          (k1.mem_iff.2 (List.mem_cons_of_mem _ hw)) hwk
        rw [lru_le] at this
        have := hm.le_iff_le.1 this
        omega
      · exact List.mem_singleton.1 hzw
    subst hzw
    have hd : (k :: (p ++ [zk])).drop n = [zk] := by
      rw [← List.cons_append]; exact List.drop_left' (by simpa using hpn)
    have htk : (k :: (p ++ [zk])).take n = k :: p := by
      rw [← List.cons_append]; exact List.take_left' (by simpa using hpn)
    refine ⟨s', by rw [hd]; exact h1, h2, h3.trans hcap, m1, hord, ?_⟩
    rw [htk]
    have hkept : kept.Perm (p.map (cellOf clock fetch τ)) := by
      have := k2.trans hp
      rw [List.map_append] at this
      exact (List.perm_append_right_iff _).1 this
    exact k1.trans (hkept.cons _)

/-! ## One lookup -/

section
variable [LinearOrder T] {clock : Nat → T} {t : Stack K (LruCell V T)} {B : Block K (LruCell V T)}
  {Ib : B.State → Prop} {eb : B.State → List (K × LruCell V T)} {Fit : K × LruCell V T → Prop} {m : Nat}

/-- The container: the memory in front, the store behind, decorated with `Lru`. -/
abbrev spilled (clock : Nat → T) (t : Stack K (LruCell V T)) (B : Block K (LruCell V T)) : Block K V :=
  decorator (lru V clock) (exclusive t.block B)

/-- Its cells. -/
abbrev spilledCells (clock : Nat → T) (t : Stack K (LruCell V T)) (B : Block K (LruCell V T)) :
    CellOps (spilled clock t B) :=
  decoratorCells (lruAccess V clock) (cellsOf (exclusiveGet (B := B) t.gets))

/-- The memory holds the keys `l.1`, the store the keys `l.2`. -/
def Spills (clock : Nat → T) (t : Stack K (LruCell V T)) (B : Block K (LruCell V T)) (Ib : B.State → Prop)
    (eb : B.State → List (K × LruCell V T)) (fetch : K → V) (n : Nat)
    (s : (t.block.State × B.State) × Nat) (l : List K × List K) : Prop :=
  ∃ τ : K → Nat, t.Inv True s.1.1 ∧ t.Ordered s.1.1 ∧ t.block.capacity s.1.1 = n ∧ Ib s.1.2 ∧
    (t.elems s.1.1).Perm (l.1.map (cellOf clock fetch τ)) ∧ (eb s.1.2).Perm (l.2.map (cellOf clock fetch τ)) ∧
    (l.1 ++ l.2).Nodup ∧ l.1.Pairwise (fun x y => τ y < τ x) ∧ (∀ k ∈ l.1 ++ l.2, τ k < s.2) ∧ l.1.length ≤ n

omit [LinearOrder K] in
theorem take_front {f : List K} {k : K} {n : Nat} (hn : 0 < n) : (k :: f).take n = k :: f.take (n - 1) := by
  obtain ⟨n, rfl⟩ : ∃ j, n = j + 1 := ⟨n - 1, by omega⟩
  simp

omit [LinearOrder K] in
theorem drop_front {f : List K} {k : K} {n : Nat} (hn : 0 < n) : (k :: f).drop n = f.drop (n - 1) := by
  obtain ⟨n, rfl⟩ : ∃ j, n = j + 1 := ⟨n - 1, by omega⟩
  simp

/-- What becomes of an element accessed. -/
def now (clock : Nat → T) (fac : Nat) (c : LruCell V T) : LruCell V T := ⟨c.value, clock fac⟩

theorem cached_step (hm : StrictMono clock) (ht : t.Tiered) (hB : Shelf B Ib eb Fit m) {fetch : K → V} {n : Nat}
    (hn : 0 < n) {s : (t.block.State × B.State) × Nat} {l : List K × List K}
    (hfit : ∀ k ∈ l.1, ∀ j < s.2, Fit (k, ⟨fetch k, clock j⟩))
    (hs : Spills clock t B Ib eb fetch n s l) (k : K) :
    ∃ s' : (t.block.State × B.State) × Nat,
      CacheProps.cached (B := spilled clock t B) (spilledCells clock t B) fetch s k =
        .ok ((decide (k ∈ l.1 ++ l.2), fetch k), s') ∧ s'.2 = s.2 + 1 ∧
      Spills clock t B Ib eb fetch n s' (spillStep n m l k) := by
  obtain ⟨⟨sf, sb⟩, fac⟩ := s
  obtain ⟨f, b⟩ := l
  obtain ⟨τ, i1, i2, i3, i4, i5, i6, i7, i8, i9, i10⟩ := hs
  simp only at i1 i2 i3 i4 i5 i6 i7 i8 i9 i10 hfit
  obtain ⟨w1, w2, w3, w4, -⟩ := Stack.Tiered.shape t ht
  have hL := t.lawful True w1 w2
  have hG := (t.getLawful w1 w4).get
  obtain ⟨n1, n2, n3⟩ := List.nodup_append.1 i7
  -- the lookup in the front
  obtain ⟨bf, fr, c1, c2, c3, c4, c5, c6⟩ := hL.contains sf k i1
  have hbf : bf = true ↔ k ∈ f := c6.trans ⟨fun ⟨v, hv⟩ => (mem_cells.1 (i5.mem_iff.1 hv)).1,
    fun h => ⟨_, i5.mem_iff.2 (mem_cells.2 ⟨h, rfl⟩)⟩⟩
  have co := (t.aged True ht).contains _ _ _ _ i1 i2 c1
  rw [← c5] at i5
  have hlow : ∀ (τ' : K → Nat) (g : List K), (∀ x ∈ g, τ' x < fac) → ∀ (i : LruCell V T),
      ∀ y ∈ g.map (cellOf clock fetch τ'), now clock fac i ≤ y.2 := by
    intro τ' g hg i y hy
    obtain ⟨yk, yc⟩ := y
    obtain ⟨q1, rfl⟩ := mem_cells.1 hy
    rw [lru_le]
    exact hm.monotone (hg yk q1).le
  by_cases hkf : k ∈ f
  · -- found in the front
    obtain rfl : bf = true := hbf.2 hkf
    obtain ⟨o, f', g1, g2, g3, g4⟩ := hG fr k (now clock fac) c2 trivial
    have hfn : ((t.elems fr).map Prod.fst).Nodup := by
      rw [(i5.map Prod.fst).nodup_iff, keys_cells]; exact n1
    have go := (t.looks ht).1.access _ _ _ _ _ c2 hfn co (fun i y hy =>
      hlow τ f (fun x hx => i9 x (List.mem_append_left _ hx)) i y (i5.mem_iff.1 hy)) g1
    cases o with
    | none => exact absurd ⟨_, i5.mem_iff.2 (mem_cells.2 ⟨hkf, rfl⟩)⟩ g4.1
    | some c =>
      obtain ⟨rest, p1, p2⟩ := g4
      obtain ⟨-, rfl⟩ := mem_cells.1 (i5.mem_iff.1 (p1.mem_iff.2 (by simp : (k, c) ∈ _)))
      have hrest : rest.Perm ((f.erase k).map (cellOf clock fetch τ)) := by
        have h1 : (f.map (cellOf clock fetch τ)).Perm (cellOf clock fetch τ k :: (f.erase k).map (cellOf clock fetch τ)) :=
          (List.perm_cons_erase hkf).map _
        exact ((p1.symm.trans (i5.trans h1))).cons_inv
      have hke : k ∉ f.erase k := fun h => (n1.mem_erase_iff.1 h).1 rfl
      have hkb : k ∉ b := fun h => n3 k hkf k h rfl
      refine ⟨((f', sb), fac + 1), ?_, rfl, Function.update τ k fac, g2, go, (g3.trans c3).trans i3, i4, ?_, ?_, ?_, ?_, ?_, ?_⟩
      · rw [show decide (k ∈ (f, b).1 ++ (f, b).2) = true from decide_eq_true (List.mem_append_left _ hkf)]
        have hacc : exclusiveAccess t.block B t.gets.get (sf, sb) k (now clock fac) =
            .ok (some ⟨fetch k, clock (τ k)⟩, (f', sb)) := by
          simp only [exclusiveAccess, c1, Res.ok_bind, g1, if_true]; rfl
        refine CacheProps.cached_hit (B := spilled clock t B) ?_
        show (do let (o, c) ← exclusiveAccess t.block B t.gets.get (sf, sb) k (now clock fac); _ : Res _) = _
        rw [hacc]
        rfl
      · simp only [spillStep, hkf, if_true, List.map_cons, cell_update, cells_update hke]
        exact p2.trans (hrest.cons _)
      · simp only [spillStep, hkf, if_true, cells_update hkb]
        exact i6
      · simp only [spillStep, hkf, if_true]
        exact ((List.perm_cons_erase hkf).append_right b).nodup_iff.1 i7
      · simp only [spillStep, hkf, if_true, List.pairwise_cons]
        refine ⟨fun y hy => ?_, ?_⟩
        · have : y ≠ k := fun h => hke (h ▸ hy)
          simp only [Function.update_self, Function.update_of_ne this]
          exact i9 y (List.mem_append_left _ (List.mem_of_mem_erase hy))
        · refine (i8.sublist List.erase_sublist).imp_of_mem fun {x y} hx hy h => ?_
          have e1 : x ≠ k := fun h => hke (h ▸ hx)
          have e2 : y ≠ k := fun h => hke (h ▸ hy)
          simpa only [Function.update_of_ne e1, Function.update_of_ne e2] using h
      · simp only [spillStep, hkf, if_true]
        intro x hx
        by_cases hxk : x = k
        · subst hxk; simp
        · rw [Function.update_of_ne hxk]
          have : x ∈ f ++ b := by
            rcases List.mem_append.1 hx with h | h
            · rcases List.mem_cons.1 h with h | h
              · exact absurd h hxk
              · exact List.mem_append_left _ (List.mem_of_mem_erase h)
            · exact List.mem_append_right _ h
          have := i9 x this
          omega
      · simp only [spillStep, hkf, if_true, List.length_cons]
        rw [List.length_erase_of_mem hkf]
        have := List.length_pos_of_mem hkf
        omega
  · obtain rfl : bf = false := by
      cases bf with
      | false => rfl
      | true => exact absurd (hbf.1 rfl) hkf
    have hdl : ((k :: f).drop n).length ≤ 1 := by simp; omega
    have hdf : ∀ x ∈ (k :: f).drop n, x ∈ f := by
      rw [drop_front hn]
      exact fun x hx => List.mem_of_mem_drop hx
    have htf : ∀ x ∈ f.take (n - 1), x ∈ f := fun x hx => List.mem_of_mem_take hx
    have hlen : (k :: f).take n ++ (k :: f).drop n = k :: f := List.take_append_drop _ _
    obtain ⟨o, bk, t1, t2, t3⟩ := hB.take sb k i4
    have hroom := hB.room sb i4
    have hbl : (eb sb).length = b.length := by rw [i6.length_eq, List.length_map]
    -- the lists of keys
    have hke : k ∉ b.erase k := fun h => (n2.mem_erase_iff.1 h).1 rfl
    have hkt : k ∉ f.take (n - 1) := fun h => hkf (htf k h)
    have hkd : k ∉ (k :: f).drop n := fun h => hkf (hdf k h)
    have hstep : spillStep n m (f, b) k = ((k :: f).take n, (b.erase k ++ (k :: f).drop n).take m) := by
      simp [spillStep, hkf]
    have hnod : ((k :: f).take n ++ (b.erase k ++ (k :: f).drop n).take m).Nodup := by
      have h1 : ((k :: f).take n ++ (b.erase k ++ (k :: f).drop n)).Nodup := by
        have hperm : ((k :: f).take n ++ (b.erase k ++ (k :: f).drop n)).Perm ((k :: f) ++ b.erase k) := by
          conv_rhs => rw [← hlen]
          rw [List.append_assoc]
          exact List.Perm.append_left _ List.perm_append_comm
        refine hperm.nodup_iff.2 ?_
        rw [List.cons_append, List.nodup_cons]
        refine ⟨fun h => ?_, i7.sublist (List.Sublist.append_left List.erase_sublist _)⟩
        rcases List.mem_append.1 h with h | h
        · exact hkf h
        · exact hke h
      exact h1.sublist (List.Sublist.append_left (List.take_sublist _ _) _)
    have hpw' : f.Pairwise (fun x y => Function.update τ k fac y < Function.update τ k fac x) := by
      refine i8.imp_of_mem fun {x y} hx hy h => ?_
      have e1 : x ≠ k := fun h => hkf (h ▸ hx)
      have e2 : y ≠ k := fun h => hkf (h ▸ hy)
      simpa only [Function.update_of_ne e1, Function.update_of_ne e2] using h
    have hnew : ∀ y ∈ f, Function.update τ k fac y < fac := by
      intro y hy
      have e2 : y ≠ k := fun h => hkf (h ▸ hy)
      rw [Function.update_of_ne e2]
      exact i9 y (List.mem_append_left _ hy)
    have hpw : ((k :: f).take n).Pairwise (fun x y => Function.update τ k fac y < Function.update τ k fac x) := by
      refine List.Pairwise.sublist (List.take_sublist _ _) ?_
      rw [List.pairwise_cons]
      refine ⟨fun y hy => ?_, hpw'⟩
      rw [Function.update_self]
      exact hnew y hy
    have hbound : ∀ x ∈ (k :: f).take n ++ (b.erase k ++ (k :: f).drop n).take m,
        Function.update τ k fac x < fac + 1 := by
      intro x hx
      by_cases hxk : x = k
      · subst hxk; simp
      · rw [Function.update_of_ne hxk]
        have : x ∈ f ++ b := by
          rcases List.mem_append.1 hx with h | h
          · rcases List.mem_cons.1 (List.mem_of_mem_take h) with h | h
            · exact absurd h hxk
            · exact List.mem_append_left _ h
          · rcases List.mem_append.1 (List.mem_of_mem_take h) with h | h
            · exact List.mem_append_right _ (List.mem_of_mem_erase h)
            · exact List.mem_append_left _ (hdf x h)
        have := i9 x this
        omega
    have hdfit : ∀ x ∈ (k :: f).drop n, Fit (cellOf clock fetch τ x) := fun x hx =>
      hfit x (hdf x hx) _ (i9 x (List.mem_append_left _ (hdf x hx)))
    rw [hstep]
    cases o with
    | some x =>
      obtain ⟨xk, xc⟩ := x
      obtain ⟨hxk, tp⟩ := t3
      simp only at hxk
      subst hxk
      obtain ⟨hkb, rfl⟩ := mem_cells.1 (i6.mem_iff.1 (tp.mem_iff.1 (by simp : (xk, xc) ∈ _)))
      have hrest : (eb bk).Perm ((b.erase xk).map (cellOf clock fetch τ)) := by
        have h1 : (b.map (cellOf clock fetch τ)).Perm (cellOf clock fetch τ xk :: (b.erase xk).map (cellOf clock fetch τ)) :=
          (List.perm_cons_erase hkb).map _
        exact (tp.trans (i6.trans h1)).cons_inv
      have hel : (b.erase xk).length + 1 ≤ m := by
        rw [List.length_erase_of_mem hkb]
        have := List.length_pos_of_mem hkb
        omega
      obtain ⟨f1, q1, q2, q3, q4, -, q6⟩ := front_push hm ht c2 co (c3.trans i3) hn i5 i8 i10 hkf
      -- the one falling out goes to the store
      have hdown : ∃ b3, exclusiveDowngrade t.block B (fr, sb) xk = .ok (true, (f1, b3)) ∧ Ib b3 ∧
          (eb b3).Perm (((b.erase xk ++ (xk :: f).drop n).take m).map (cellOf clock fetch τ)) := by
        by_cases hd : (xk :: f).drop n = []
        · rw [hd] at q1 ⊢
          refine ⟨bk, ?_, t2, ?_⟩
          · simp only [exclusiveDowngrade, t1, Res.ok_bind]
            rw [show t.block.push fr [(xk, (⟨fetch xk, clock (τ xk)⟩ : LruCell V T))] = .ok ([], f1) from q1]
            rfl
          · rw [List.append_nil, List.take_of_length_le (by omega)]
            exact hrest
        · obtain ⟨o2, b3, r1, r2, r3, r4⟩ := hB.push t2 hrest hdl hdfit
          obtain rfl := r4 (by omega)
          refine ⟨b3, ?_, r2, r3⟩
          simp only [exclusiveDowngrade, t1, Res.ok_bind]
          rw [show t.block.push fr [(xk, (⟨fetch xk, clock (τ xk)⟩ : LruCell V T))] = .ok (_, f1) from q1]
          have hne : ¬ ((xk :: f).drop n).map (cellOf clock fetch τ) = [] := fun h => hd (List.map_eq_nil_iff.1 h)
          simp only [Res.ok_bind, if_neg hne, r1, if_true]
          rfl
      obtain ⟨b3, d1, d2, d3⟩ := hdown
      obtain ⟨o, f', g1, g2, g3, g4⟩ := hG f1 xk (now clock fac) q2 trivial
      have hmem : xk ∈ (xk :: f).take n := by rw [take_front hn]; simp
      have hfn : ((t.elems f1).map Prod.fst).Nodup := by
        rw [(q6.map Prod.fst).nodup_iff, keys_cells]; exact (List.nodup_append.1 hnod).1
      have go := (t.looks ht).1.accessX _ _ _ _ _ q2 hfn q4 (fun i y hy hyk => by
        have hy' := q6.mem_iff.1 hy
        rw [take_front hn, List.map_cons] at hy'
        rcases List.mem_cons.1 hy' with h | h
        · exact absurd (congrArg Prod.fst h) hyk
        · exact hlow τ _ (fun x hx => i9 x (List.mem_append_left _ (htf x hx))) i y h) g1
      cases o with
      | none => exact absurd ⟨_, q6.mem_iff.2 (mem_cells.2 ⟨hmem, rfl⟩)⟩ g4.1
      | some c =>
        obtain ⟨rest, p1, p2⟩ := g4
        obtain ⟨-, rfl⟩ := mem_cells.1 (q6.mem_iff.1 (p1.mem_iff.2 (by simp : (xk, c) ∈ _)))
        have hrest' : rest.Perm ((f.take (n - 1)).map (cellOf clock fetch τ)) := by
          have := p1.symm.trans q6
          rw [take_front hn, List.map_cons] at this
          exact this.cons_inv
        refine ⟨((f', b3), fac + 1), ?_, rfl, Function.update τ xk fac, g2, go, g3.trans q3, d2, ?_, ?_, hnod, hpw,
          hbound, by simp⟩
        · rw [show decide (xk ∈ (f, b).1 ++ (f, b).2) = true from decide_eq_true (List.mem_append_right _ hkb)]
          have hacc : exclusiveAccess t.block B t.gets.get (sf, sb) xk (now clock fac) =
              .ok (some ⟨fetch xk, clock (τ xk)⟩, (f', b3)) := by
            simp only [exclusiveAccess, c1, Res.ok_bind, Bool.false_eq_true, if_false, d1, if_true, g1]; rfl
          refine CacheProps.cached_hit (B := spilled clock t B) ?_
          show (do let (o, c) ← exclusiveAccess t.block B t.gets.get (sf, sb) xk (now clock fac); _ : Res _) = _
          rw [hacc]
          rfl
        · simp only
          rw [take_front hn, List.map_cons, cell_update, cells_update hkt]
          exact p2.trans (hrest'.cons _)
        · simp only
          rw [cells_update]
          · exact d3
          · intro h
            rcases List.mem_append.1 (List.mem_of_mem_take h) with h | h
            · exact hke h
            · exact hkd h
    | none =>
      have hkb : k ∉ b := fun h => t3.1 ⟨_, i6.mem_iff.2 (mem_cells.2 ⟨h, rfl⟩)⟩
      have hbe : b.erase k = b := List.erase_of_not_mem hkb
      obtain ⟨f1, q1, q2, q3, -, q5, q6⟩ := front_push hm ht (fetch := fetch) (τ := Function.update τ k fac) (k := k)
        c2 co (c3.trans i3) hn (by rw [cells_update hkf]; exact i5) hpw' i10 hkf
      obtain ⟨o2, b3, r1, r2, r3, -⟩ := hB.push (g := cellOf clock fetch (Function.update τ k fac)) (b := b)
        (c := (k :: f).drop n) t2 (by rw [cells_update hkb]; exact t3.2.trans i6) hdl (fun x hx => by
          have : x ≠ k := fun h => hkd (h ▸ hx)
          have h2 : cellOf clock fetch (Function.update τ k fac) x = cellOf clock fetch τ x := by
            simp [cellOf, Function.update_of_ne this]
          rw [h2]
          exact hdfit x hx)
      refine ⟨((f1, b3), fac + 1), ?_, rfl, Function.update τ k fac, q2, q5 (fun y hy => ?_), q3, r2, q6, ?_, hnod, hpw,
        hbound, by simp⟩
      · rw [show decide (k ∈ (f, b).1 ++ (f, b).2) = false from decide_eq_false (by simp [hkf, hkb])]
        have hacc : exclusiveAccess t.block B t.gets.get (sf, sb) k (now clock fac) = .ok (none, (fr, bk)) := by
          simp only [exclusiveAccess, c1, Res.ok_bind, Bool.false_eq_true, if_false, exclusiveDowngrade, t1]; rfl
        refine CacheProps.cached_miss (B := spilled clock t B) (s' := ((fr, bk), fac)) (out := o2.map (strip (lru V clock))) ?_ ?_
        · show (do let (o, c) ← exclusiveAccess t.block B t.gets.get (sf, sb) k (now clock fac); _ : Res _) = _
          rw [hacc]
          rfl
        · rw [cell_update] at q1
          show (do let (out, c) ← (do
              let (popped, f) ← t.block.push fr [(k, (⟨fetch k, clock fac⟩ : LruCell V T))]
              let (out, b) ← B.push bk popped
              pure (out, (f, b)) : Res _); _ : Res _) = _
          rw [q1]
          simp only [Res.ok_bind]
          rw [r1]
          rfl
      · rw [Function.update_self]; exact hnew y hy
      · simp only
        rw [hbe]
        exact r3

end

end Byoc.Spill
