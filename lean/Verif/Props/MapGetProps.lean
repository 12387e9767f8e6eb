import Verif.Proofs.MapGet
import Verif.Props.MapStackProps

/-!
# C101: `get` and `get_mut` through stacks of all the building blocks
-/

namespace Byoc
namespace MapGetProps

open MapStackProps (Holds)

variable {K V : Type}

/-! ## Specification -/

/-- The user's account of what a container holds, after the value of `k` was changed by `f`. -/
def written [DecidableEq K] (held : List (K × V)) (k : K) (f : V → V) : List (K × V) :=
  held.map fun e => if e.1 = k then (e.1, f e.2) else e

/-- Every call returns, what is handed back is what was held or given, every access finds exactly the
value held, and the container left and the account satisfy `P`. -/
def Tracked [DecidableEq K] (B : Block K V) (G : GetOps B) (P : B.State → List (K × V) → Prop) :
    B.State → List (K × V) → List (Call K V) → Prop
  | s, held, [] => P s held
  | s, held, .op o :: cs => ∃ out s' held', B.step s o = .ok (out, s') ∧
      (held' ++ out).Perm (held ++ o.given) ∧ Tracked B G P s' held' cs
  | s, held, .get k f :: cs => ∃ o s', G.get s k f = .ok (o, s') ∧ (∀ v, o = some v ↔ (k, v) ∈ held) ∧
      Tracked B G P s' held cs
  | s, held, .getMut k f :: cs => ∃ o s', G.getMut s k f = .ok (o, s') ∧
      (∀ v, o = some v ↔ (k, v) ∈ held) ∧ Tracked B G P s' (written held k f) cs

/-- Every batch pushed has distinct keys, none of them held. -/
def FreshFrom [DecidableEq K] (B : Block K V) (G : GetOps B) :
    B.State → List (K × V) → List (Call K V) → Prop
  | _, _, [] => True
  | s, held, .op o :: cs => ((held ++ o.given).map Prod.fst).Nodup ∧
      ∀ out s' held', B.step s o = .ok (out, s') → (held' ++ out).Perm (held ++ o.given) →
        FreshFrom B G s' held' cs
  | s, held, .get k f :: cs => ∀ o s', G.get s k f = .ok (o, s') → FreshFrom B G s' held cs
  | s, held, .getMut k f :: cs => ∀ o s', G.getMut s k f = .ok (o, s') →
      FreshFrom B G s' (written held k f) cs

/-- A read changes nothing, a write is of the kind `Write`, and `pop` is called only if `Pop`. -/
def Legal (Write : (V → V) → Prop) (Pop : Prop) : Call K V → Prop
  | .op o => Pop ∨ o.NotPop
  | .get _ f => f = id
  | .getMut _ f => Write f

/-- What a user can see of a container from which `held`, with the values last written, was not handed
back; `flushes` and `pops`: the container has a working `flush` and `pop`. -/
structure Shows (B : Block K V) (G : GetOps B) (Read Write : (V → V) → Prop) (flushes pops : Prop)
    (s : B.State) (held : List (K × V)) : Prop extends Holds B s held where
  get : ∀ k f, Read f → ∃ o s', G.get s k f = .ok (o, s') ∧ ∀ v, o = some v ↔ (k, v) ∈ held
  getMut : ∀ k f, Write f → ∃ o s', G.getMut s k f = .ok (o, s') ∧ ∀ v, o = some v ↔ (k, v) ∈ held
  flush : flushes → ∃ out s', B.flush s = .ok (out, s') ∧ out.Perm held ∧ B.size s' = 0
  pop : pops → ∀ n, ∃ out s', B.pop s n = .ok (out, s') ∧ out.Subperm held ∧
    (B.size s' + n ≤ B.size s ∨ out.Perm held)

/-- The container implements `get` and `get_mut`, through decorators giving access to the value decorated,
and no `Inclusive` is accessed. -/
def HasGet : {V : Type} → MapStack K V → Prop
  | _, .array _ _ _ => True
  | _, .btree _ sz => ∀ e, 0 < sz e
  | _, .compressed _ _ _ _ => True
  | _, .inclusive _ _ => False
  | _, .exclusive f _ => HasGet f
  | _, .batch c => HasGet c
  | _, .associative _ c => HasGet c
  | _, .flushStopper c => HasGet c
  | _, .sequential c => HasGet c
  | _, .dyn _ c => ∀ i, HasGet (c i)
  | _, .decorator D A c => (∀ fac f i, D.unwrap (A.access fac f i) = f (D.unwrap i)) ∧ HasGet c
  | _, .profiler c => HasGet c
  | _, .remote _ => False

/-- Every leaf, when empty, has room for any element. -/
def Fits [LinearOrder K] : {V : Type} → (t : MapStack K V) → t.block.State → Prop
  | _, .array sz _ _, s => ∀ e, sz e ≤ Array.capacity s
  | _, .btree _ sz, s => ∀ e, sz e ≤ BTree.capacity s
  | _, .compressed _ cd _ _, s => ∀ e b, cd.enc e = some b → 8 + b.length ≤ Compressed.capacity s
  | _, .inclusive f b, s => Fits f s.1 ∧ Fits b s.2
  | _, .exclusive f b, s => Fits f s.1 ∧ Fits b s.2
  | _, .batch c, s => s ≠ ([] : List c.block.State) ∧ Stack.All (Fits c) s
  | _, .associative _ c, s => Stack.All (Fits c) s
  | _, .flushStopper c, s => Fits c s
  | _, .sequential c, s => Fits c s
  | _, .dyn _ c, s => Fits (c s.1) s.2
  | _, .decorator _ _ c, s => Fits c s.1
  | _, .profiler c, s => Fits c s.1
  | _, .remote c, s => Fits c s

/-- Full statement of C101: any nesting of building blocks whose elements all take the same room, every
leaf having room for one. -/
def C101_full : Prop :=
  ∀ (K V : Type) (_ : LinearOrder K) (t : MapStack K V), t.WF → HasGet t → t.Even →
    ∀ (s : t.block.State) (cs : List (Call K V)), t.Init s → Fits t s → t.Allows false id →
      FreshFrom t.block t.gets s [] cs → (∀ c ∈ cs, Legal (t.Allows true) t.NoAssociative c) →
      Tracked t.block t.gets
        (Shows t.block t.gets (fun f => f = id) (t.Allows true) t.NoFlushStopper t.NoAssociative) s [] cs

/-! ## Proof -/

section
variable [LinearOrder K]

omit [LinearOrder K] in
theorem written_perm [DecidableEq K] {held : List (K × V)} {k : K} {v : V} {r : List (K × V)} {f : V → V}
    (hd : DistinctKeys held) (hp : held.Perm ((k, v) :: r)) :
    (written held k f).Perm ((k, f v) :: r) := by
  have h1 := hp.map fun e : K × V => if e.1 = k then (e.1, f e.2) else e
  refine (show (written held k f).Perm _ from h1).trans ?_
  rw [List.map_cons]
  have hn := hd.perm hp.symm
  unfold DistinctKeys at hn
  simp only [List.map_cons, List.nodup_cons] at hn
  have : r.map (fun e : K × V => if e.1 = k then (e.1, f e.2) else e) = r := by
    conv => rhs; rw [← List.map_id r]
    apply List.map_congr_left
    intro e he
    have : e.1 ≠ k := fun h0 => hn.1 (h0 ▸ List.mem_map_of_mem he)
    simp [this]
  rw [this]
  simp

omit [LinearOrder K] in
theorem written_none [DecidableEq K] {held : List (K × V)} {k : K} {f : V → V} (h : ¬ HasKey held k) :
    written held k f = held := by
  conv => rhs; rw [← List.map_id held]
  apply List.map_congr_left
  intro e he
  have : e.1 ≠ k := fun h0 => h ⟨e.2, h0 ▸ he⟩
  simp [this]

/-- What an access finds, and the account afterwards. -/
theorem access {write : Bool} {B : Block K V} {op : B.State → K → (V → V) → Res (Option V × B.State)}
    {I e PreF} (h : SeenLaw write B op I e PreF) (m : MapCore B I e) {s : B.State} (hs : I s)
    {held : List (K × V)} (hp : held.Perm (e s)) (k : K) {f : V → V} (hf : PreF f)
    (hid : write = false → f = id) :
    ∃ o s', op s k f = .ok (o, s') ∧ I s' ∧ B.capacity s' = B.capacity s ∧
      (∀ v, o = some v ↔ (k, v) ∈ held) ∧ (written held k f).Perm (e s') := by
  have hd : DistinctKeys held := (m.distinct s hs).perm hp
  obtain ⟨o, s', h1, h2, h3, h4⟩ := h s k f hs hf
  refine ⟨o, s', h1, h2, h3, ?_⟩
  cases o with
  | none =>
    have hn : ¬ HasKey held k := fun ⟨v, hv⟩ => h4.1 ⟨v, hp.subset hv⟩
    exact ⟨fun v => ⟨fun h0 => (by cases h0), fun h0 => absurd ⟨v, h0⟩ hn⟩, by
      rw [written_none hn]; exact hp.trans h4.2.symm⟩
  | some v =>
    obtain ⟨w, r, hw, p1, p2⟩ := h4
    have q1 := hp.trans p1
    have hv : (k, v) ∈ held := q1.symm.subset (by simp)
    refine ⟨fun u => ⟨fun h0 => (by cases h0; exact hv), fun h0 => ?_⟩, ?_⟩
    · have := List.inj_on_of_nodup_map hd hv h0 rfl
      cases this; rfl
    · have hw' : w = f v := by
        rcases hw with rfl | ⟨h0, rfl⟩
        · rfl
        · rw [hid h0]; rfl
      rw [hw'] at p2
      exact (written_perm hd q1).trans p2.symm

theorem shows_of {t : MapStack K V} (hw : t.WF) (hg : t.Gettable) (hr : t.Allows false id)
    {s : t.block.State} (hs : t.GInv false s) {held : List (K × V)} (hp : held.Perm (t.elems s)) :
    Shows t.block t.gets (fun f => f = id) (t.Allows true) t.NoFlushStopper t.NoAssociative s held where
  toHolds := MapStackProps.holds_of hw (t.ginv_inv false s hs) hp
  get k f hf := by
    subst hf
    obtain ⟨o, s', h1, -, -, h4, -⟩ :=
      access (t.gcell hw hg false).1 (t.gmap hw false) hs hp k hr (fun _ => rfl)
    exact ⟨o, s', h1, h4⟩
  getMut k f hf := by
    obtain ⟨o, s', h1, -, -, h4, -⟩ :=
      access (t.gcell hw hg false).2 (t.gmap hw false) hs hp k hf (fun h => by cases h)
    exact ⟨o, s', h1, h4⟩
  flush hn := by
    have hi := t.ginv_inv false s hs
    obtain ⟨o, s'', g1, g2, g3⟩ := t.flushes hw hn s hi
    obtain ⟨o', t', k1, k2, -⟩ := (t.map hw).1.flush s hi
    rw [g1] at k1
    cases k1
    exact ⟨o, s'', g1, g3.trans hp.symm, (t.map hw).1.empty_size s'' k2 g2⟩
  pop hn n := by
    obtain ⟨o, s'', g1, g2, g3, g4, g5⟩ := t.gpop hw hn false s n hs
    refine ⟨o, s'', g1, ((List.sublist_append_right _ _).subperm.trans g4.subperm).trans hp.symm.subperm,
      g5.imp id fun h => ?_⟩
    rw [h] at g4
    exact (show o.Perm (t.elems s) by simpa using g4).trans hp.symm

theorem step_fresh {t : MapStack K V} (hw : t.WF) {s : t.block.State} (hs : t.GInv false s) (op : Op K V)
    (hop : t.NoAssociative ∨ op.NotPop) (hd : DistinctKeys (t.elems s ++ op.given)) :
    ∃ out s', t.block.step s op = .ok (out, s') ∧ t.GInv false s' ∧
      t.block.capacity s' = t.block.capacity s ∧ (t.elems s' ++ out).Perm (t.elems s ++ op.given) := by
  have m := t.gmap hw false
  cases op with
  | push l => exact m.pushFresh s l hs hd
  | pop n =>
    rcases hop with hn | hn
    · obtain ⟨o, s', h1, h2, h3, h4, -⟩ := t.gpop hw hn false s n hs
      exact ⟨o, s', h1, h2, h3, by simpa [Op.given] using h4⟩
    · exact hn.elim
  | contains k => exact m.toCore.step s hs (.contains k) trivial trivial
  | take k => exact m.toCore.step s hs (.take k) trivial trivial
  | takeMultiple ks => exact m.toCore.step s hs (.takeMultiple ks) trivial trivial
  | flush => exact m.toCore.step s hs .flush trivial trivial

/-- **C101**, proved part: for every nesting in which the back of an `Exclusive` contains no `Associative`
and the leaves under an `Exclusive` hold at least one element (a `Compressed`: with 8 bytes to spare
whatever the number of its elements), elements being of one size there, every history of calls and accesses
returns; what is handed back is what was held; `get` and `get_mut` find exactly the keys held, with the
value last written; the capacity is constant and respected. -/
theorem C101_partial (t : MapStack K V) (hw : t.WF) (hg : t.Gettable) (hr : t.Allows false id)
    (s : t.block.State) (hi : t.Init s) (hroom : t.Room false s)
    (cs : List (Call K V)) (hf : FreshFrom t.block t.gets s [] cs)
    (hl : ∀ c ∈ cs, Legal (t.Allows true) t.NoAssociative c) :
    Tracked t.block t.gets (fun s' held => t.block.capacity s' = t.block.capacity s ∧
      Shows t.block t.gets (fun f => f = id) (t.Allows true) t.NoFlushStopper t.NoAssociative s' held)
      s [] cs := by
  have key : ∀ (cs : List (Call K V)) (s1 : t.block.State) (held : List (K × V)), t.GInv false s1 →
      held.Perm (t.elems s1) → t.block.capacity s1 = t.block.capacity s →
      FreshFrom t.block t.gets s1 held cs → (∀ c ∈ cs, Legal (t.Allows true) t.NoAssociative c) →
      Tracked t.block t.gets (fun s' held => t.block.capacity s' = t.block.capacity s ∧
        Shows t.block t.gets (fun f => f = id) (t.Allows true) t.NoFlushStopper t.NoAssociative s' held)
        s1 held cs := by
    intro cs
    induction cs with
    | nil => intro s1 held h1 h2 h3 _ _; exact ⟨h3, shows_of hw hg hr h1 h2⟩
    | cons c cs ih =>
      intro s1 held h1 h2 h3 hf hl
      have hc := hl c (by simp)
      have hl' : ∀ c ∈ cs, Legal (t.Allows true) t.NoAssociative c := fun d hd => hl d (by simp [hd])
      cases c with
      | op o =>
        obtain ⟨out, s', g1, g2, g3, g4⟩ := step_fresh hw h1 o hc
          (DistinctKeys.perm hf.1 (h2.symm.append_right _))
        have g5 : (t.elems s' ++ out).Perm (held ++ o.given) := by perms [g4, h2]
        exact ⟨out, s', t.elems s', g1, g5, ih s' _ g2 (List.Perm.refl _) (g3.trans h3)
          (hf.2 _ _ _ g1 g5) hl'⟩
      | get k f =>
        have hid : f = id := hc
        obtain ⟨o, s', g1, g2, g3, g4, g5⟩ := access (t.gcell hw hg false).1 (t.gmap hw false) h1 h2 k
          (f := f) (by rw [hid]; exact hr) (fun _ => hid)
        have hheld : written held k f = held := by
          rw [hid]; simp [written]
        exact ⟨o, s', g1, g4, ih s' held g2 (by rw [hheld] at g5; exact g5) (g3.trans h3)
          (hf _ _ g1) hl'⟩
      | getMut k f =>
        obtain ⟨o, s', g1, g2, g3, g4, g5⟩ := access (t.gcell hw hg false).2 (t.gmap hw false) h1 h2 k
          (f := f) hc (fun h => by cases h)
        exact ⟨o, s', g1, g4, ih s' _ g2 g5 (g3.trans h3) (hf _ _ g1) hl'⟩
  exact key cs s [] (t.ginv_of false s (t.init_inv hw s hi) hroom)
    (by rw [t.init_elems hw s hi]) rfl hf hl

/-- No key is ever pushed twice: then every history is fresh. -/
theorem freshFrom_of_distinct (B : Block K V) (G : GetOps B) : ∀ (cs : List (Call K V)) (s : B.State)
    (held : List (K × V)), ((held ++ cs.flatMap Call.given).map Prod.fst).Nodup →
    FreshFrom B G s held cs := by
  intro cs
  induction cs with
  | nil => intro _ _ _; trivial
  | cons c cs ih =>
    intro s held h
    rw [List.flatMap_cons] at h
    cases c with
    | op o =>
      refine ⟨DistinctKeys.part (r := cs.flatMap Call.given) h (by simp only [Call.given]; perms []), ?_⟩
      intro out s' held' _ hp
      exact ih s' held' (DistinctKeys.part (r := out) h (by simp only [Call.given]; perms [hp]))
    | get k f => exact fun o s' _ => ih s' held h
    | getMut k f =>
      intro o s' _
      refine ih s' _ ?_
      have : (written held k f).map Prod.fst = held.map Prod.fst := by
        simp only [written, List.map_map]
        apply List.map_congr_left
        intro e _
        simp only [Function.comp]
        split <;> rfl
      rw [List.map_append, this, ← List.map_append]
      exact h

omit [LinearOrder K] in
theorem tracked_returns [DecidableEq K] (B : Block K V) (G : GetOps B)
    (P : B.State → List (K × V) → Prop) : ∀ (cs : List (Call K V)) (s : B.State) {held : List (K × V)},
    Tracked B G P s held cs → B.calls G s cs ≠ .panic := by
  intro cs
  induction cs with
  | nil => intro s held _ h; cases h
  | cons c cs ih =>
    intro s held ht h
    cases c with
    | op o =>
      obtain ⟨out, s', held', h1, -, h3⟩ := ht
      have := ih s' h3
      simp only [Block.calls, Block.call, h1] at h
      cases hc : B.calls G s' cs with
      | panic => exact this hc
      | ok r =>
        change (B.calls G s' cs).bind _ = _ at h
        rw [hc] at h; cases h
    | get k f =>
      obtain ⟨o, s', h1, -, h3⟩ := ht
      have := ih s' h3
      simp only [Block.calls, Block.call, h1] at h
      cases hc : B.calls G s' cs with
      | panic => exact this hc
      | ok r =>
        change (B.calls G s' cs).bind _ = _ at h
        rw [hc] at h; cases h
    | getMut k f =>
      obtain ⟨o, s', h1, -, h3⟩ := ht
      have := ih s' h3
      simp only [Block.calls, Block.call, h1] at h
      cases hc : B.calls G s' cs with
      | panic => exact this hc
      | ok r =>
        change (B.calls G s' cs).bind _ = _ at h
        rw [hc] at h; cases h

theorem panic_of {α β : Type} {r : Res (α × β)} (h : (r.bind fun r => Res.ok r.1) = .panic) :
    r = .panic := by
  cases r with
  | panic => rfl
  | ok r => cases h

end

/-! ## A tower of sets, in front of compressed batches behind a socket -/

section Examples

/-- Nine bytes per element. -/
def nineParse : List UInt8 → Option (List (Fin 256 × Fin 256))
  | [] => some []
  | a :: b :: _ :: _ :: _ :: _ :: _ :: _ :: _ :: r =>
    (nineParse r).map ((⟨a.toNat, a.toNat_lt⟩, ⟨b.toNat, b.toNat_lt⟩) :: ·)
  | _ => none

def nineVec : VecCodec (Fin 256 × Fin 256) where
  enc e := some [UInt8.ofNat e.1, UInt8.ofNat e.2, 0, 0, 0, 0, 0, 0, 0]
  dec b := nineParse (b.drop 8)

theorem nineParse_body (l : List (Fin 256 × Fin 256)) : ∀ b, nineVec.body l = some b →
    nineParse b = some l := by
  induction l with
  | nil => intro b h; cases h; simp [nineParse]
  | cons e l ih =>
    intro b h
    cases hb : nineVec.body l with
    | none => simp [VecCodec.body, hb] at h
    | some bs =>
      have hen : nineVec.enc e = some [UInt8.ofNat e.1, UInt8.ofNat e.2, 0, 0, 0, 0, 0, 0, 0] := rfl
      simp only [VecCodec.body, hb, hen] at h
      have : b = UInt8.ofNat e.1 :: UInt8.ofNat e.2 :: 0 :: 0 :: 0 :: 0 :: 0 :: 0 :: 0 :: bs := by
        simpa using h.symm
      subst this
      have h1 : (UInt8.ofNat e.1).toNat = e.1 := by have := e.1.isLt; simp
      have h2 : (UInt8.ofNat e.2).toNat = e.2 := by have := e.2.isLt; simp
      simp only [nineParse, h1, h2, ih bs hb, Option.map_some]

theorem nineVec_law : nineVec.Law := by
  intro l b h
  cases hb : nineVec.body l with
  | none => simp [VecCodec.encode, hb] at h
  | some bs =>
    simp only [VecCodec.encode, hb] at h
    have : b = VecCodec.header l.length ++ bs := by simpa using h.symm
    subst this
    have hd : (VecCodec.header l.length ++ bs).drop 8 = bs := by
      conv_lhs => rw [← VecCodec.header_length l.length]
      simp
    simp only [nineVec, hd]
    exact nineParse_body l bs hb

def byValue : Sorter (Fin 256 × Fin 256) := Sorter.ofLe (fun a b => a.2 ≤ b.2)

/-- `Profiler<Exclusive<Associative<BTree>, SocketClient>>`, the server holding a `Batch<Compressed>`. -/
def tower : MapStack (Fin 256) (Fin 256) :=
  .profiler (.exclusive (.associative (fun k => k) (.btree inferInstance fun _ => 1))
    (.remote (.batch (.compressed CompressedProps.noComp nineVec byValue byValue))))

theorem tower_wf : tower.WF := ⟨trivial, nineVec_law⟩

theorem tower_gettable : tower.Gettable :=
  ⟨fun _ => Nat.one_pos, ⟨1, Nat.one_pos, fun _ => rfl⟩, ⟨9, fun _ => ⟨_, rfl, rfl⟩⟩, trivial⟩

/-- Two sets of one element, then two batches of two. -/
def towerNew : tower.block.State :=
  (([BTree.new 1, BTree.new 1], [Compressed.new 34, Compressed.new 34]), {})

theorem tower_init : tower.Init towerNew := by
  refine ⟨⟨⟨by decide, ?_⟩, ?_⟩, rfl⟩
  · intro (x : BTree (Fin 256) (Fin 256)) hx
    replace hx : x ∈ [BTree.new 1, BTree.new 1] := hx
    have h : x = BTree.new 1 := by simpa using hx
    exact ⟨1, h⟩
  · intro (x : Compressed) hx
    replace hx : x ∈ [Compressed.new 34, Compressed.new 34] := hx
    have h : x = Compressed.new 34 := by simpa using hx
    exact ⟨34, h⟩

theorem tower_room : tower.Room false towerNew := by
  refine ⟨?_, ?_, fun _ => by decide⟩
  · intro (x : BTree (Fin 256) (Fin 256)) hx
    replace hx : x ∈ [BTree.new 1, BTree.new 1] := hx
    have : x = BTree.new 1 := by simpa using hx
    subst this
    exact fun _ _ => Nat.le_refl 1
  · intro (x : Compressed) hx
    replace hx : x ∈ [Compressed.new 34, Compressed.new 34] := hx
    have : x = Compressed.new 34 := by simpa using hx
    subst this
    rintro - e b h
    cases h
    exact (by decide : 16 + 9 ≤ 34 ∧ 8 ≤ (34 - 8) % 9)

theorem tower_reads : tower.Allows false id := fun _ _ => rfl

/-- Any value may be written. -/
theorem tower_writes (f : Fin 256 → Fin 256) : tower.Allows true f := fun _ _ => rfl

/-- Pushes overflowing both sets, accesses bringing elements back through the socket, values written and
taken. -/
def towerCalls : List (Call (Fin 256) (Fin 256)) :=
  [.op (.push [(1, 10), (2, 20), (3, 30)]), .op (.push [(4, 40)]), .get 1 id, .getMut 2 (fun v => v + 5),
    .get 4 id, .getMut 9 (fun v => v + 1), .op (.take 2), .op (.push [(5, 7)]), .get 3 id, .op .flush]

theorem tower_fresh : FreshFrom tower.block tower.gets towerNew [] towerCalls :=
  freshFrom_of_distinct _ _ _ _ _ (by decide)

theorem tower_legal : ∀ c ∈ towerCalls, Legal (tower.Allows true) tower.NoAssociative c := by
  intro c hc
  simp only [towerCalls, List.mem_cons, List.not_mem_nil, or_false] at hc
  rcases hc with rfl | rfl | rfl | rfl | rfl | rfl | rfl | rfl | rfl | rfl
  · exact .inr trivial
  · exact .inr trivial
  · rfl
  · exact tower_writes fun v => v + 5
  · rfl
  · exact tower_writes fun v => v + 1
  · exact .inr trivial
  · exact .inr trivial
  · rfl
  · exact .inr trivial

/-- The hypotheses of C101 hold of the tower and of this history. -/
example := C101_partial tower tower_wf tower_gettable tower_reads towerNew tower_init tower_room towerCalls
  tower_fresh tower_legal

/-- What the history hands back: key 2 with the value written. -/
example : ((tower.block.calls tower.gets towerNew towerCalls).bind fun r => Res.ok r.1)
    = .ok [(2, 25), (1, 10), (5, 7), (4, 40), (3, 30)] := by decide +kernel

/-- The value written is read, after another access moved it back behind the socket. -/
example : ((tower.block.calls tower.gets towerNew (towerCalls.take 5)).bind fun r =>
    (tower.gets.get r.2 2 id).bind fun r => Res.ok r.1) = .ok (some 25) := by decide +kernel

/-! ## Where the full statement fails -/

/-- `Exclusive<Array, Associative<Array>>`. -/
def setsBehind : MapStack (Fin 256) (Fin 256) :=
  .exclusive (.array (fun _ => 1) byValue byValue)
    (.associative (fun k => k) (.array (fun _ => 1) byValue byValue))

/-- One element in front, two sets of one element behind. -/
def setsBehindNew : setsBehind.block.State := (Array.new 1, [Array.new 1, Array.new 1])

def setsBehindCalls : List (Call (Fin 256) (Fin 256)) :=
  [.op (.push [(0, 0)]), .op (.push [(1, 1)]), .op (.push [(2, 2)]), .get 1 id]

/-- The access takes key 1 out of its set, pushes it to the front, which evicts key 2, whose set is full:
the `Exclusive` asserts that nothing comes back and panics. -/
theorem C101_sets_behind_panics :
    setsBehind.block.calls setsBehind.gets setsBehindNew setsBehindCalls = .panic :=
  panic_of (by decide +kernel)

/-- **C101 is false of the code.** -/
theorem C101_false : ¬ C101_full := by
  intro h
  have hn : ¬ (setsBehind.block.calls setsBehind.gets setsBehindNew setsBehindCalls = .panic) := by
    refine tracked_returns _ _ _ _ _ (h (Fin 256) (Fin 256) inferInstance setsBehind ⟨trivial, trivial⟩
      trivial ⟨⟨1, fun _ => rfl⟩, ⟨1, fun _ => rfl⟩⟩ setsBehindNew setsBehindCalls ?_ ?_ (fun _ _ => rfl)
      (freshFrom_of_distinct _ _ _ _ _ (by decide)) ?_)
    · refine ⟨⟨1, rfl⟩, by decide, ?_⟩
      intro (x : Array (Fin 256) (Fin 256)) hx
      replace hx : x ∈ [Array.new 1, Array.new 1] := hx
      have h : x = Array.new 1 := by simpa using hx
      exact ⟨1, h⟩
    · refine ⟨fun _ => Nat.le_refl 1, ?_⟩
      intro (x : Array (Fin 256) (Fin 256)) hx
      replace hx : x ∈ [Array.new 1, Array.new 1] := hx
      have h : x = Array.new 1 := by simpa using hx
      subst h
      exact fun _ => Nat.le_refl 1
    · intro c hc
      simp only [setsBehindCalls, List.mem_cons, List.not_mem_nil, or_false] at hc
      rcases hc with rfl | rfl | rfl | rfl
      · exact .inr trivial
      · exact .inr trivial
      · exact .inr trivial
      · rfl
  exact hn C101_sets_behind_panics

/-- `Exclusive<Array, Compressed>`. -/
def compressedBehind : MapStack (Fin 256) (Fin 256) :=
  .exclusive (.array (fun _ => 1) byValue byValue)
    (.compressed CompressedProps.noComp nineVec byValue byValue)

/-- The 26 bytes of the back hold a header and two elements.  One element in front, two behind: all are
kept, and the first access to one behind panics, because to exchange an element the `Compressed` counts a
second header. -/
theorem C101_compressed_behind_panics :
    ((compressedBehind.block.calls compressedBehind.gets (Array.new 1, Compressed.new 26)
      [.op (.push [(1, 1), (2, 2), (3, 3)])]).bind fun r => Res.ok r.1) = .ok [] ∧
    compressedBehind.block.calls compressedBehind.gets (Array.new 1, Compressed.new 26)
      [.op (.push [(1, 1), (2, 2), (3, 3)]), .get 2 id] = .panic :=
  ⟨by decide +kernel, panic_of (by decide +kernel)⟩

/-- Without a spare header the same panic, not ruled out by `Fits`: C101 also fails there. -/
example : compressedBehind.WF ∧ HasGet compressedBehind ∧ compressedBehind.Even ∧
    Fits compressedBehind (Array.new 1, Compressed.new 26) :=
  ⟨⟨trivial, nineVec_law⟩, trivial, ⟨⟨1, fun _ => rfl⟩, ⟨9, fun _ => ⟨_, rfl, rfl⟩⟩⟩,
    fun _ => Nat.le_refl 1, fun _ _ h => by cases h; exact (by decide : 8 + 9 ≤ 26)⟩

end Examples

end MapGetProps
end Byoc
