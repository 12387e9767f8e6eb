import Verif.Props.PolicyProps
import Verif.Props.LrfuProps

/-!
# C77: what an `Array` decorated with `Lrfu` evicts

Elements are ranked by the sum of the intervals between their uses up to now, each older interval
divided once more by the exponent (`weighted`, `gaps`: see C71).  `C41` is about comparisons that read
the clock twice; here both readings of a comparison are equal, in which case the order does not depend
on when the comparison is made.
-/

namespace Byoc.LrfuHistProps

open Policy ArrayProps PolicyProps LrfuProps

variable {K V : Type} [LinearOrder K]

/-! ## Specification -/

/-- One use of a key: its push (`true`) or an access to it (`false`). -/
abbrev Use (K : Type) := Bool × K

/-- The uses one call makes of the elements of a container holding `elems`: accesses to keys that are
not stored are not uses. -/
def usesOf (elems : List (K × V)) : Call K V → List (Use K)
  | .op (.push l) => l.map fun e => (true, e.1)
  | .op _ => []
  | .get k _ => if k ∈ elems.map Prod.fst then [(false, k)] else []
  | .getMut k _ => if k ∈ elems.map Prod.fst then [(false, k)] else []

/-- The uses of a history of calls. -/
def usesIn (B : Block K V) (G : GetOps B) : B.State → List (Call K V) → List (Use K)
  | _, [] => []
  | s, c :: cs => usesOf (B.contents s) c ++
    match B.call G s c with
    | .ok (_, s') => usesIn B G s' cs
    | .panic => []

/-- The `i`-th use happens at time `clock i`. -/
def timed (clock : Nat → Nat) (us : List (Use K)) : List (Use K × Nat) :=
  us.mapIdx fun i u => (u, clock i)

/-- The times of the uses of `k` since it was last pushed. -/
def times (k : K) (us : List (Use K × Nat)) : List Nat :=
  us.foldl (fun ts u => if u.1.2 = k then (if u.1.1 then [u.2] else ts ++ [u.2]) else ts) []

/-- The rank of an element used at times `ts`, at time `now`: the greatest are evicted first. -/
def rank (e : ℚ) (ts : List Nat) (now : Nat) : ℚ := weighted e (gaps (ts ++ [now]).reverse)

/-! ## The order of cells does not depend on time -/

/-- lrfu.rs 177-186, both scores being read at the same time. -/
instance : LE (LrfuCell V) := ⟨fun a b => a.stats.score 0 ≤ b.stats.score 0⟩

theorem lrfu_le (a b : LrfuCell V) (now : Nat) : a ≤ b ↔ a.stats.score now ≤ b.stats.score now := by
  show a.stats.score 0 ≤ b.stats.score 0 ↔ _
  simp only [LrfuStats.score, tsDiff]
  constructor <;> intro h <;> push_cast at h ⊢ <;> linarith

/-- This is the order of the code's comparison when both readings are equal. -/
theorem lrfu_le_iff_cmp (a b : LrfuCell V) (clock : Nat → Nat) (n : Nat) (h : clock n = clock (n + 1)) :
    a ≤ b ↔ a.cmp clock n b ≠ .gt := by
  rw [lrfu_le a b (clock n), LrfuCell.cmp, ← h, Ne, compare_gt_iff_gt, not_lt]

/-! ## Proof -/

section
variable {e : ℚ} {clock : Nat → Nat}

omit [LinearOrder K] in
theorem timed_snoc (us : List (Use K)) (u : Use K) :
    timed clock (us ++ [u]) = timed clock us ++ [(u, clock us.length)] := by
  simp [timed, List.mapIdx_append]

theorem times_snoc (k : K) (us : List (Use K × Nat)) (u : Use K × Nat) :
    times k (us ++ [u]) =
      if u.1.2 = k then (if u.1.1 then [u.2] else times k us ++ [u.2]) else times k us := by
  simp [times, List.foldl_append]

variable {I : Type}

/-- Every stored item has the statistics of its uses. -/
def Tracks (stats : I → LrfuStats) (e : ℚ) (clock : Nat → Nat) (items : List (K × I)) (us : List (Use K)) :
    Prop :=
  ∀ x ∈ items, ∃ t0 ts, times x.1 (timed clock us) = t0 :: ts ∧ stats x.2 = life e t0 ts

theorem Tracks.sub {stats : I → LrfuStats} {items items' : List (K × I)} {us}
    (h : Tracks stats e clock items us) (hs : ∀ x ∈ items', x ∈ items) :
    Tracks stats e clock items' us := fun x hx => h x (hs x hx)

/-- Using another key changes nothing. -/
theorem Tracks.other {stats : I → LrfuStats} {items : List (K × I)} {us}
    (h : Tracks stats e clock items us) (u : Use K) (hu : ∀ x ∈ items, x.1 ≠ u.2) :
    Tracks stats e clock items (us ++ [u]) := by
  intro x hx
  obtain ⟨t0, ts, h1, h2⟩ := h x hx
  refine ⟨t0, ts, ?_, h2⟩
  rw [timed_snoc, times_snoc, if_neg (fun hh => hu x hx hh.symm)]
  exact h1

/-- A decoration that keeps statistics. -/
structure Keeps (D : Decoration V) (A : Access D) (stats : D.Item → LrfuStats) (read : D.Factory → Nat)
    (e : ℚ) (clock : Nat → Nat) : Prop where
  faithful : ∀ f v, D.unwrap (D.wrap f v).1 = v
  wrap : ∀ f v, stats (D.wrap f v).1 = life e (clock (read f)) [] ∧ read (D.wrap f v).2 = read f + 1
  accesses : ∀ fac f i, D.unwrap (A.access fac f i) = f (D.unwrap i)
  touch : ∀ fac f i, stats (A.access fac f i) = (stats i).touch (clock (read fac)) ∧
    read (A.tick fac) = read fac + 1

variable {D : Decoration V} {A : Access D} {stats : D.Item → LrfuStats} {read : D.Factory → Nat}

theorem Tracks.wrapAll (hD : Keeps D A stats read e clock) : ∀ (l : List (K × V)) (fac : D.Factory)
    (us : List (Use K)) (items : List (K × D.Item)),
    (items.map Prod.fst ++ l.map Prod.fst).Nodup → read fac = us.length → Tracks stats e clock items us →
    Tracks stats e clock (items ++ (Byoc.wrapAll D fac l).1) (us ++ l.map fun x => (true, x.1)) ∧
    read (Byoc.wrapAll D fac l).2 = us.length + l.length
  | [], fac, us, items, _, hr, h => ⟨by simpa [Byoc.wrapAll] using h, by simpa [Byoc.wrapAll] using hr⟩
  | (k, v) :: l, fac, us, items, hn, hr, h => by
    have hk : ∀ x ∈ items, x.1 ≠ k := by
      intro x hx heq
      exact (List.nodup_append.1 hn).2.2 x.1 (List.mem_map_of_mem hx) k (by simp) heq
    have hw := hD.wrap fac v
    have h1 : Tracks stats e clock ((k, (D.wrap fac v).1) :: items) (us ++ [(true, k)]) := by
      intro x hx
      rcases List.mem_cons.1 hx with rfl | hx
      · refine ⟨clock us.length, [], ?_, by rw [hw.1, hr]⟩
        rw [timed_snoc, times_snoc]; simp
      · exact h.other (true, k) hk x hx
    have hlen : (us ++ [((true, k) : Use K)]).length = us.length + 1 := by simp
    obtain ⟨h2, h3⟩ := Tracks.wrapAll hD l (D.wrap fac v).2 (us ++ [(true, k)])
      ((k, (D.wrap fac v).1) :: items) (by
        refine (List.Perm.nodup_iff ?_).1 hn
        simp only [List.map_cons, List.cons_append]
        exact List.perm_middle) (by rw [hw.2, hr, hlen]) h1
    rw [hlen] at h3
    constructor
    · have : us ++ ((k, v) :: l).map (fun x => ((true, x.1) : Use K)) =
          us ++ [(true, k)] ++ l.map fun x => (true, x.1) := by simp
      rw [this]
      refine h2.sub ?_
      intro x hx
      simp only [Byoc.wrapAll, List.mem_append, List.mem_cons, List.cons_append] at hx ⊢
      tauto
    · simp only [Byoc.wrapAll, List.length_cons, h3]; omega

variable {C : Block K D.Item} {G : GetOps C} {Inv : C.State → Prop} {ec : C.State → List (K × D.Item)}
  {PreF : (D.Item → D.Item) → Prop}

theorem tracks_access (hD : Keeps D A stats read e clock)
    {op : C.State → K → (D.Item → D.Item) → Res (Option D.Item × C.State)}
    (hop : AccessLaw C op Inv ec PreF) {s s' : C.State} {fac : D.Factory} {us : List (Use K)} {k : K}
    {f : V → V} {o} (hs : Inv s) (hf : PreF (A.access fac f))
    (hn : ((ec s).map Prod.fst).Nodup) (hr : read fac = us.length) (ht : Tracks stats e clock (ec s) us)
    (he : op s k (A.access fac f) = .ok (o, s')) :
    Inv s' ∧ ((ec s').map Prod.fst).Nodup ∧
      read (if o.isSome then A.tick fac else fac) =
        (us ++ if k ∈ (ec s).map Prod.fst then [(false, k)] else []).length ∧
      Tracks stats e clock (ec s')
        (us ++ if k ∈ (ec s).map Prod.fst then [(false, k)] else []) := by
  obtain ⟨o', s1, h1, h2, h3, h4⟩ := hop s k _ hs hf
  rw [he] at h1
  cases h1
  cases o with
  | none =>
    have hk : k ∉ (ec s).map Prod.fst := by
      intro hm
      obtain ⟨⟨k', v'⟩, hm', rfl⟩ := List.mem_map.1 hm
      exact h4.1 ⟨v', hm'⟩
    rw [if_neg hk, List.append_nil]
    exact ⟨h2, (h4.2.map Prod.fst).nodup_iff.2 hn, by simpa using hr,
      ht.sub (fun x hx => h4.2.mem_iff.1 hx)⟩
  | some i =>
    obtain ⟨rest, r1, r2⟩ := h4
    have hk : k ∈ (ec s).map Prod.fst :=
      List.mem_map.2 ⟨(k, i), r1.mem_iff.2 (by simp), rfl⟩
    have hn1 : (((k, i) :: rest).map Prod.fst).Nodup := (r1.map Prod.fst).nodup_iff.1 hn
    have hk' : ∀ x ∈ rest, x.1 ≠ k := by
      intro x hx heq
      simp only [List.map_cons, List.nodup_cons] at hn1
      exact hn1.1 (heq ▸ List.mem_map_of_mem hx)
    obtain ⟨t1, t2⟩ := hD.touch fac f i
    rw [if_pos hk]
    refine ⟨h2, (r2.map Prod.fst).nodup_iff.2 (by simpa using hn1), by simp [t2, hr], ?_⟩
    intro x hx
    rcases List.mem_cons.1 (r2.mem_iff.1 hx) with rfl | hx
    · obtain ⟨t0, ts, g1, g2⟩ := ht (k, i) (r1.mem_iff.2 (by simp))
      refine ⟨t0, ts ++ [clock us.length], ?_, ?_⟩
      · rw [timed_snoc, times_snoc, g1]; simp
      · rw [life_snoc, ← g2, ← hr]; exact t1
    · exact (ht.sub (items' := rest) fun y hy => r1.mem_iff.2 (by simp [hy])).other _ hk' x hx

theorem tracks_call (hD : Keeps D A stats read e clock) (hC : Lawful C Inv ec (fun _ => True))
    (hG : GetLawful C G Inv ec PreF) {s s' : C.State × D.Factory} {c : Call K V} {out}
    {us : List (Use K)} (hs : Inv s.1)
    (hc : c.Ok (fun _ => True) (fun f => ∀ fac, PreF (A.access fac f)))
    (hn : ((ec s.1).map Prod.fst ++ c.given.map Prod.fst).Nodup)
    (hr : read s.2 = us.length) (ht : Tracks stats e clock (ec s.1) us)
    (he : (decorator D C).call (decoratorGet A G) s c = .ok (out, s')) :
    Inv s'.1 ∧ ((ec s'.1).map Prod.fst).Nodup ∧
      read s'.2 = (us ++ usesOf ((ec s.1).map (strip D)) c).length ∧
      Tracks stats e clock (ec s'.1) (us ++ usesOf ((ec s.1).map (strip D)) c) := by
  obtain ⟨s, fac⟩ := s
  have hkeys : ((ec s).map (strip D)).map Prod.fst = (ec s).map Prod.fst := by
    simp [strip, Function.comp_def]
  have hn0 : ((ec s).map Prod.fst).Nodup := (List.nodup_append.1 hn).1
  have shrink : ∀ {s1 : C.State} {l : List (K × D.Item)}, Inv s1 →
      (ec s1 ++ l).Perm (ec s) →
      Inv s1 ∧ ((ec s1).map Prod.fst).Nodup ∧ read fac = (us ++ ([] : List (Use K))).length ∧
        Tracks stats e clock (ec s1) (us ++ []) := by
    intro s1 l hi hp
    refine ⟨hi, ?_, by simpa using hr, ?_⟩
    · have := (hp.map Prod.fst).nodup_iff.2 hn0
      rw [List.map_append] at this
      exact (List.nodup_append.1 this).1
    · rw [List.append_nil]
      exact ht.sub (fun e he => hp.mem_iff.1 (by simp [he]))
  cases c with
  | get k f =>
    simp only [Block.call, decoratorGet] at he
    obtain ⟨o, s1, h1, -⟩ := hG.get s k (A.access fac f) hs (hc _)
    rw [h1] at he
    cases he
    simpa only [usesOf, hkeys] using tracks_access hD hG.get hs (hc _) hn0 hr ht h1
  | getMut k f =>
    simp only [Block.call, decoratorGet] at he
    obtain ⟨o, s1, h1, -⟩ := hG.getMut s k (A.access fac f) hs (hc _)
    rw [h1] at he
    cases he
    simpa only [usesOf, hkeys] using tracks_access hD hG.getMut hs (hc _) hn0 hr ht h1
  | op o =>
    cases o with
    | contains k =>
      obtain ⟨b, s1, h1, h2, -, -, h3, -⟩ := hC.contains s k hs
      simp only [Block.call, Block.step, decorator, h1, Res.ok_bind, Res.pure_eq, Res.ok.injEq,
        Prod.mk.injEq] at he
      obtain ⟨-, rfl⟩ := he
      exact shrink (l := []) h2 (by simp [h3])
    | take k =>
      obtain ⟨o, s1, h1, h2, -, h3⟩ := hC.take s k hs
      simp only [Block.call, Block.step, decorator, h1, Res.ok_bind, Res.pure_eq, Res.ok.injEq,
        Prod.mk.injEq] at he
      obtain ⟨-, rfl⟩ := he
      cases o with
      | none => exact shrink (l := []) h2 (by simpa using h3.2)
      | some e => exact shrink (l := [e]) h2 ((List.perm_append_singleton _ _).trans h3.2)
    | takeMultiple ks =>
      obtain ⟨o, ks', s1, h1, h2, -, h3, -⟩ := hC.takeMultiple s ks hs
      simp only [Block.call, Block.step, decorator, h1, Res.ok_bind, Res.pure_eq, Res.ok.injEq,
        Prod.mk.injEq] at he
      obtain ⟨-, rfl⟩ := he
      exact shrink h2 h3
    | pop n =>
      obtain ⟨o, s1, h1, h2, -, h3, -⟩ := hC.pop s n hs
      simp only [Block.call, Block.step, decorator, h1, Res.ok_bind, Res.pure_eq, Res.ok.injEq,
        Prod.mk.injEq] at he
      obtain ⟨-, rfl⟩ := he
      exact shrink h2 h3
    | flush =>
      obtain ⟨o, s1, h1, h2, -, h3⟩ := hC.flush s hs
      simp only [Block.call, Block.step, decorator, h1, Res.ok_bind, Res.pure_eq, Res.ok.injEq,
        Prod.mk.injEq] at he
      obtain ⟨-, rfl⟩ := he
      exact shrink h2 h3
    | push l =>
      obtain ⟨o, s1, h1, h2, -, h3⟩ := hC.push s (Byoc.wrapAll D fac l).1 hs trivial
      simp only [Block.call, Block.step, decorator, h1, Res.ok_bind, Res.pure_eq, Res.ok.injEq,
        Prod.mk.injEq] at he
      obtain ⟨-, rfl⟩ := he
      obtain ⟨h4, h5⟩ := Tracks.wrapAll hD l fac us (ec s) hn hr ht
      refine ⟨h2, ?_, ?_, ?_⟩
      · have := (h3.map Prod.fst).nodup_iff.2 (by
          rw [List.map_append, wrapAll_keys]; exact hn)
        rw [List.map_append] at this
        exact (List.nodup_append.1 this).1
      · simp [usesOf, h5]
      · exact h4.sub (fun e he => h3.mem_iff.1 (by simp [he]))

omit [LinearOrder K] in
theorem call_of_calls {B : Block K V} {G : GetOps B} {s s' : B.State} {c : Call K V} {out}
    (h : B.calls G s [c] = .ok (out, s')) : B.call G s c = .ok (out, s') := by
  simp only [Block.calls] at h
  cases hcall : B.call G s c with
  | panic => simp [hcall] at h
  | ok r =>
    obtain ⟨a, b⟩ := r
    simpa [hcall] using h

variable {sz : K × D.Item → Nat} {srt srtS : Sorter (K × D.Item)}

theorem tracks_calls (hD : Keeps D A stats read e clock) (cs : List (Call K V)) (hk : KeepsSize A sz cs) :
    ∀ (s : (decorated D sz srt srtS).State) (us : List (Use K)), Array.Inv sz s.1 →
      (s.1.values.map Prod.fst).Nodup → read s.2 = us.length → Tracks stats e clock s.1.values us →
      Fresh A sz srt srtS s cs →
      ∃ outs s', (decorated D sz srt srtS).calls (decoratedGet A sz srt srtS) s cs = .ok (outs, s') ∧
        Array.Inv sz s'.1 ∧ (s'.1.values.map Prod.fst).Nodup ∧
        read s'.2 = (us ++ usesIn _ (decoratedGet A sz srt srtS) s cs).length ∧
        Tracks stats e clock s'.1.values (us ++ usesIn _ (decoratedGet A sz srt srtS) s cs) := by
  have hL := decorator_lawful D hD.faithful (Array.lawful sz srt srtS)
  have hGL := decorator_getLawful (A := A) hD.accesses (Array.getLawful sz srt srtS)
  induction cs with
  | nil =>
    intro s us h1 h2 h3 h4 _
    exact ⟨[], s, rfl, h1, h2, by simpa [usesIn] using h3, by simpa [usesIn] using h4⟩
  | cons c cs ih =>
    intro s us h1 h2 h3 h4 hf
    have hc := hk c (by simp)
    obtain ⟨o1, s1, e1, -⟩ := hL.calls hGL [c] (fun x hx => by
      simp only [List.mem_singleton] at hx
      subst hx
      cases x with
      | op o => cases o <;> first | trivial | (intro f; trivial)
      | get k f => exact hc
      | getMut k f => exact hc) s h1
    replace e1 := call_of_calls e1
    have hkeys : ((s.1.values.map (strip D)).map Prod.fst) = s.1.values.map Prod.fst := by
      simp [strip, Function.comp_def]
    have hn : (s.1.values.map Prod.fst ++ c.given.map Prod.fst).Nodup := by
      have h0 := hf.1
      replace h0 : ((s.1.values.map (strip D)).map Prod.fst).Nodup →
        ((s.1.values.map (strip D) ++ c.given).map Prod.fst).Nodup := h0
      rw [List.map_append, hkeys] at h0
      exact h0 h2
    obtain ⟨i1, i2, i3, i4⟩ := tracks_call hD (Array.lawful sz srt srtS) (Array.getLawful sz srt srtS)
      h1 hc hn h3 h4 e1
    obtain ⟨o2, s2, e2, j1, j2, j3, j4⟩ := ih (fun x hx => hk x (by simp [hx])) s1 _ i1 i2 i3 i4
      (hf.2 _ _ e1)
    have hu : us ++ usesIn _ (decoratedGet A sz srt srtS) s (c :: cs) =
        us ++ usesOf (s.1.values.map (strip D)) c ++ usesIn _ (decoratedGet A sz srt srtS) s1 cs := by
      rw [List.append_assoc]
      simp only [usesIn, e1]
      rfl
    rw [hu]
    exact ⟨o1 ++ o2, s2, by simp [Block.calls, e1, e2], j1, j2, j3, j4⟩

theorem Tracks.rank {items : List (K × D.Item)} {us : List (Use K)}
    (h : Tracks stats e clock items us) {x : K × D.Item} (hx : x ∈ items) (now : Nat) :
    (stats x.2).score now = rank e (times x.1 (timed clock us)) now := by
  obtain ⟨t0, ts, h1, h2⟩ := h x hx
  rw [h2, C71_score, h1]
  rfl

/-- What `pop` evicts ranks at least as high as what it keeps. -/
theorem pop_ranks [LE D.Item] (hle : ∀ (a b : D.Item) now, a ≤ b ↔ (stats a).score now ≤ (stats b).score now)
    (hS : ByValue srt) {s : (decorated D sz srt srtS).State} {us : List (Use K)} (hi : Array.Inv sz s.1)
    (ht : Tracks stats e clock s.1.values us) (n : Nat) :
    ∃ out s', (decorated D sz srt srtS).pop s n = .ok (out, s') ∧
      ∀ x ∈ out, ∀ y ∈ (decorated D sz srt srtS).contents s', ∀ now,
        rank e (times y.1 (timed clock us)) now ≤ rank e (times x.1 (timed clock us)) now := by
  obtain ⟨out, c, h1, h2, -⟩ := (Array.lawful sz srt srtS).pop s.1 n hi
  obtain ⟨h3, h4⟩ := Array.pop_order hS hi h1
  refine ⟨out.map (strip D), (c, s.2), by simp [decorated, decorator, h1], ?_⟩
  intro x hx y hy now
  replace hy : y ∈ c.values.map (strip _) := hy
  obtain ⟨x, hx', rfl⟩ := List.mem_map.1 hx
  obtain ⟨y, hy', rfl⟩ := List.mem_map.1 hy
  have := (hle _ _ now).1 (h4 y hy' x hx')
  rw [ht.rank (x := x) (h3.mem_iff.1 (List.mem_append_right _ hx')),
    ht.rank (x := y) (h3.mem_iff.1 (List.mem_append_left _ hy'))] at this
  exact this

/-- What `push` evicts ranks at least as high as what it keeps, or makes room for what is pushed. -/
theorem push_ranks [LE D.Item] (hD : Keeps D A stats read e clock)
    (hle : ∀ (a b : D.Item) now, a ≤ b ↔ (stats a).score now ≤ (stats b).score now)
    (hS : ByValue srt) (hS' : ByValue srtS) {s : (decorated D sz srt srtS).State} {us : List (Use K)}
    (hi : Array.Inv sz s.1) (hr : read s.2 = us.length)
    (ht : Tracks stats e clock s.1.values us) (l : List (K × V))
    (hn : (s.1.values.map Prod.fst ++ l.map Prod.fst).Nodup) :
    ∃ out s', (decorated D sz srt srtS).push s l = .ok (out, s') ∧
      ∀ x ∈ out, ∀ y ∈ (decorated D sz srt srtS).contents s', ∀ now,
        (x.1 ∈ s.1.values.map Prod.fst ∧ y.1 ∈ l.map Prod.fst) ∨
        rank e (times y.1 (timed clock (us ++ l.map fun x => (true, x.1)))) now ≤
          rank e (times x.1 (timed clock (us ++ l.map fun x => (true, x.1)))) now := by
  obtain ⟨out, c, h1, h2, -⟩ := (Array.lawful sz srt srtS).push s.1 (wrapAll D s.2 l).1 hi trivial
  obtain ⟨h3, h4⟩ := Array.push_order hS hS' hi h1
  obtain ⟨ht', -⟩ := Tracks.wrapAll hD l s.2 us s.1.values hn hr ht
  refine ⟨out.map (strip D), (c, (wrapAll D s.2 l).2), by simp [decorated, decorator, h1], ?_⟩
  intro x hx y hy now
  replace hy : y ∈ c.values.map (strip _) := hy
  obtain ⟨x, hx', rfl⟩ := List.mem_map.1 hx
  obtain ⟨y, hy', rfl⟩ := List.mem_map.1 hy
  rcases h4 y hy' x hx' with ⟨g1, g2⟩ | g
  · refine .inl ⟨List.mem_map_of_mem g1, ?_⟩
    rw [← wrapAll_keys (D := D) l s.2]
    exact List.mem_map_of_mem g2
  · right
    have := (hle _ _ now).1 g
    rw [ht'.rank (x := x) (h3.mem_iff.1 (List.mem_append_right _ hx')),
      ht'.rank (x := y) (h3.mem_iff.1 (List.mem_append_left _ hy'))] at this
    exact this

end

theorem lrfu_keeps (e : ℚ) (clock : Nat → Nat) :
    Keeps (lrfu V e clock) (lrfuAccess V e clock) (fun c : LrfuCell V => c.stats) (fun n : Nat => n)
      e clock :=
  ⟨fun _ _ => rfl, fun _ _ => ⟨rfl, rfl⟩, fun _ _ _ => rfl, fun _ _ _ => ⟨rfl, rfl⟩⟩

instance {e : ℚ} {clock : Nat → Nat} : LE (lrfu V e clock).Item := inferInstanceAs (LE (LrfuCell V))

/-- An `Array` decorated with `Lrfu`. -/
abbrev lrfuArray (e : ℚ) (clock : Nat → Nat) (sz : K × LrfuCell V → Nat)
    (srt srtS : Sorter (K × LrfuCell V)) : Block K V := decorated (lrfu V e clock) sz srt srtS

/-- Its accesses. -/
abbrev lrfuArrayGet (e : ℚ) (clock : Nat → Nat) (sz : K × LrfuCell V → Nat)
    (srt srtS : Sorter (K × LrfuCell V)) : GetOps (lrfuArray e clock sz srt srtS) :=
  decoratedGet (lrfuAccess V e clock) sz srt srtS

/-- The uses of a history on a new container of capacity `cap`, with their times. -/
def log (e : ℚ) (clock : Nat → Nat) (sz : K × LrfuCell V → Nat) (srt srtS : Sorter (K × LrfuCell V))
    (cap : Nat) (cs : List (Call K V)) : List (Use K) :=
  usesIn _ (lrfuArrayGet e clock sz srt srtS) (Array.new cap, (0 : Nat)) cs

/-- **C77.** After any history of calls and accesses on an `Array` decorated with `Lrfu`, whatever the
time, every element evicted by `pop` ranks at least as high as every element kept; an element
evicted by a further `push` ranks at least as high as every element kept, except that stored elements may
be evicted to make room for the ones being pushed.  The rank of an element is computed from the times of
its own uses since it was pushed, of which there is at least one (its push). -/
theorem C77_lrfu_evicts (e : ℚ) (clock : Nat → Nat) (sz : K × LrfuCell V → Nat)
    (srt srtS : Sorter (K × LrfuCell V)) (hS : ByValue srt) (hS' : ByValue srtS) (cap : Nat)
    (cs : List (Call K V)) (hk : KeepsSize (D := lrfu V e clock) (lrfuAccess V e clock) sz cs)
    (hf : Fresh (D := lrfu V e clock) (lrfuAccess V e clock) sz srt srtS (Array.new cap, (0 : Nat)) cs) :
    ∃ outs s, (lrfuArray e clock sz srt srtS).calls (lrfuArrayGet e clock sz srt srtS)
        (Array.new cap, (0 : Nat)) cs = .ok (outs, s) ∧
      (∀ x ∈ (lrfuArray e clock sz srt srtS).contents s,
        times x.1 (timed clock (log e clock sz srt srtS cap cs)) ≠ []) ∧
      (∀ n, ∃ out s', (lrfuArray e clock sz srt srtS).pop s n = .ok (out, s') ∧
        ∀ x ∈ out, ∀ y ∈ (lrfuArray e clock sz srt srtS).contents s', ∀ now,
          rank e (times y.1 (timed clock (log e clock sz srt srtS cap cs))) now ≤
          rank e (times x.1 (timed clock (log e clock sz srt srtS cap cs))) now) ∧
      (∀ l : List (K × V), (((lrfuArray e clock sz srt srtS).contents s ++ l).map Prod.fst).Nodup →
        ∃ out s', (lrfuArray e clock sz srt srtS).push s l = .ok (out, s') ∧
        ∀ x ∈ out, ∀ y ∈ (lrfuArray e clock sz srt srtS).contents s', ∀ now,
          (x.1 ∉ l.map Prod.fst ∧ y.1 ∈ l.map Prod.fst) ∨
          rank e (times y.1 (timed clock
            (log e clock sz srt srtS cap cs ++ l.map fun x => (true, x.1)))) now ≤
          rank e (times x.1 (timed clock
            (log e clock sz srt srtS cap cs ++ l.map fun x => (true, x.1)))) now) := by
  obtain ⟨outs, s, h1, h2, h3, h4, h5⟩ := tracks_calls (D := lrfu V e clock) (srt := srt) (srtS := srtS)
    (lrfu_keeps e clock) cs hk (Array.new cap, (0 : Nat)) [] (Array.new_inv sz cap) (by simp [Array.new])
    rfl (by intro x hx; cases hx) hf
  rw [List.nil_append] at h4 h5
  refine ⟨outs, s, h1, ?_, ?_, ?_⟩
  · intro x hx
    replace hx : x ∈ s.1.values.map (strip _) := hx
    obtain ⟨x, hx', rfl⟩ := List.mem_map.1 hx
    obtain ⟨t0, ts, g, -⟩ := h5 x hx'
    exact fun h => List.cons_ne_nil _ _ (g.symm.trans h)
  · intro n
    exact pop_ranks (D := lrfu V e clock) (fun a b now => lrfu_le a b now) hS h2 h5 n
  · intro l hn
    replace hn : ((s.1.values.map (strip _) ++ l).map Prod.fst).Nodup := hn
    rw [List.map_append, List.map_map] at hn
    obtain ⟨out, s', g1, g2⟩ := push_ranks (D := lrfu V e clock) (lrfu_keeps e clock)
      (fun a b now => lrfu_le a b now) hS hS' h2 h4 h5 l hn
    refine ⟨out, s', g1, ?_⟩
    intro x hx y hy now
    rcases g2 x hx y hy now with ⟨a, b⟩ | h
    · refine .inl ⟨fun hm => ?_, b⟩
      exact (List.nodup_append.1 hn).2.2 x.1 a x.1 hm rfl
    · exact .inr h

/-- With exponent 1 (what every configuration file gets, see C62) the rank of an element is the time
elapsed since its push, however it was used since: C77 then says first in, first out. -/
theorem C77_exponent_one (t0 : Nat) (ts : List Nat) (now : Nat) :
    rank 1 (t0 :: ts) now = (now : ℚ) - t0 := by
  rw [← C71_exponent_one t0 ts now, C71_score]
  rfl

/-! ### Non-vacuity -/

instance (a b : LrfuCell V) : Decidable (a ≤ b) := inferInstanceAs (Decidable (_ ≤ _))

def lrfuSorter : Sorter (Nat × LrfuCell Nat) := Sorter.ofLe (fun a b => a.2 ≤ b.2)

theorem lrfuSorter_byValue : ByValue lrfuSorter := by
  intro l
  have : Std.Total (fun a b : Nat × LrfuCell Nat => a.2 ≤ b.2) :=
    ⟨fun a b => by simp only [lrfu_le _ _ 0]; exact le_total _ _⟩
  have : IsTrans (Nat × LrfuCell Nat) (fun a b => a.2 ≤ b.2) :=
    ⟨fun a b c => by simp only [lrfu_le _ _ 0]; exact fun h1 h2 => le_trans h1 h2⟩
  exact List.pairwise_insertionSort _ l

/-- Keys 1 and 2 are pushed, key 1 is read and written, then key 3 is pushed. -/
def c77Calls : List (Call Nat Nat) :=
  [.op (.push [(1, 10), (2, 20)]), .get 1 id, .get 7 id, .getMut 1 (· + 1), .op (.push [(3, 30)])]

theorem c77_keeps : KeepsSize (D := lrfu Nat 2 id) (lrfuAccess Nat 2 id) (fun _ : Nat × LrfuCell Nat => 1)
    c77Calls := by
  intro c hc
  simp only [c77Calls, List.mem_cons, List.not_mem_nil, or_false] at hc
  rcases hc with rfl | rfl | rfl | rfl | rfl <;> first | trivial | (intro _ _ _; rfl)

theorem c77_fresh : Fresh (D := lrfu Nat 2 id) (lrfuAccess Nat 2 id) (fun _ : Nat × LrfuCell Nat => 1)
    lrfuSorter lrfuSorter (Array.new 3, (0 : Nat)) c77Calls :=
  fresh_of_freshB _ _ _ (by decide +kernel)

/-- Key 7 is not stored: reading it is not a use. -/
theorem c77_log : log 2 id (fun _ : Nat × LrfuCell Nat => 1) lrfuSorter lrfuSorter 3 c77Calls =
    [(true, 1), (true, 2), (false, 1), (false, 1), (true, 3)] := by decide +kernel

example := C77_lrfu_evicts 2 id (fun _ : Nat × LrfuCell Nat => 1) lrfuSorter lrfuSorter
  lrfuSorter_byValue lrfuSorter_byValue 3 c77Calls c77_keeps c77_fresh

/-- With exponent 2, key 2 (pushed second, never used since) is evicted first. -/
theorem C77_witness : ((lrfuArray 2 id (fun _ : Nat × LrfuCell Nat => 1) lrfuSorter lrfuSorter).calls
    (lrfuArrayGet 2 id _ _ _) (Array.new 3, (0 : Nat))
    (c77Calls ++ [.op (.pop 1)])).bind (fun x => .ok x.1) = .ok [(2, 20)] := by decide +kernel

end Byoc.LrfuHistProps
