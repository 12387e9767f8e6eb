import Verif.Proofs.InclusiveCache
import Verif.Props.CacheProps
import Verif.Props.InclusiveProps

/-!
# C111: an `Inclusive` decorated with a policy, used as a cache
-/

namespace Byoc.InclusiveCacheProps

open ArrayProps Policy PolicyProps InclCache Inclusive

variable {K V T : Type} [LinearOrder K]

/-! ## A cache -/

/-- A request: look a key up with `get` (`none`) or with `get_mut`, changing the value (`some f`). -/
abbrev Request (K V : Type) : Type := K × Option (V → V)

/-- What the request does to the value. -/
def Request.change (r : Request K V) : V → V := r.2.getD id

/-- Serve a request: `get` or `get_mut`; if the key is missing, fetch the value and push it.  The answer: was it found, and
the value before the change (or the one fetched). -/
def serve {B : Block K V} (G : GetOps B) (fetch : K → V) (s : B.State) (r : Request K V) : Res ((Bool × V) × B.State) := do
  let (o, s) ← match r.2 with
    | none => G.get s r.1 id
    | some f => G.getMut s r.1 f
  match o with
  | some v => return ((true, v), s)
  | none => do
    let (_, s) ← B.push s [(r.1, fetch r.1)]
    return ((false, fetch r.1), s)

/-- Requests, one after the other. -/
def serveAll {B : Block K V} (G : GetOps B) (fetch : K → V) (s : B.State) :
    List (Request K V) → Res (List (Bool × V) × B.State)
  | [] => .ok ([], s)
  | r :: rs => do
    let (a, s) ← serve G fetch s r
    let (as, s) ← serveAll G fetch s rs
    return (a :: as, s)

/-- The textbook FIFO cache of `c` elements, the last entered first: a request of a key it holds answers and changes the
value, where it is; another one enters the value fetched and drops what came first, if there is no room. -/
def fifoServe (c : Nat) (fetch : K → V) (l : List (K × V)) (r : Request K V) : (Bool × V) × List (K × V) :=
  match l.find? fun e => e.1 = r.1 with
  | some e => ((true, e.2), l.map fun x => if x.1 = r.1 then (r.1, r.change e.2) else x)
  | none => ((false, fetch r.1), ((r.1, fetch r.1) :: l).take c)

def fifoServeAll (c : Nat) (fetch : K → V) (l : List (K × V)) : List (Request K V) → List (Bool × V) × List (K × V)
  | [] => ([], l)
  | r :: rs => let x := fifoServe c fetch l r
    let y := fifoServeAll c fetch x.2 rs
    (x.1 :: y.1, y.2)

/-! ## One request -/

section
variable [LinearOrder T] {D : Decoration V} {A : Access D} {stamp : D.Item → T} {clock : Nat → T} {read : D.Factory → Nat}
  {touch : Bool} {F B : Block K (InclCell D.Item)} {GF : GetOps F} {GB : GetOps B} {If : F.State → Prop}
  {Ib : B.State → Prop} {ef : F.State → List (K × InclCell D.Item)} {eb : B.State → List (K × InclCell D.Item)}

/-- What a level has to satisfy: it obeys the contract and counts elements. -/
structure Level (F : Block K (InclCell D.Item)) (GF : GetOps F) (If : F.State → Prop)
    (ef : F.State → List (K × InclCell D.Item)) : Prop where
  law : Lawful F If ef fun _ => True
  acc : GetLawful F GF If ef fun _ => True
  slots : Slots F If ef

/-- The back level evicts what has the lowest stamp. -/
def Evicts (stamp : D.Item → T) (B : Block K (InclCell D.Item)) (Ib : B.State → Prop)
    (eb : B.State → List (K × InclCell D.Item)) : Prop :=
  ∀ s x out s', Ib s → B.push s [x] = .ok (out, s') → ∀ y ∈ eb s', ∀ z ∈ out,
    (z ∈ eb s ∧ y = x) ∨ stamp z.2.value ≤ stamp y.2.value

/-- The state of the container when the textbook cache of `c` elements holds `l`. -/
structure Good (stamp : D.Item → T) (clock : Nat → T) (read : D.Factory → Nat) (touch : Bool)
    (F B : Block K (InclCell D.Item)) (If : F.State → Prop) (Ib : B.State → Prop)
    (ef : F.State → List (K × InclCell D.Item)) (eb : B.State → List (K × InclCell D.Item)) (c : Nat)
    (s : F.State × B.State) (fac : D.Factory) (l : List (K × V)) : Prop where
  fInv : If s.1
  bInv : Ib s.2
  room : 0 < F.capacity s.1
  cap : B.capacity s.2 = c
  pos : 0 < c
  len : l.length ≤ c
  held : ∃ L, (eb s.2).Perm L ∧ Held stamp D.unwrap touch (clock (read fac)) (ef s.1) L l

theorem good_access (hF : Level F GF If ef) (hA : Accesses D A stamp clock read touch) (hm : StrictMono clock) {c : Nat}
    {s : F.State × B.State} {fac : D.Factory} {l : List (K × V)}
    (g : Good stamp clock read touch F B If Ib ef eb c s fac l) {k : K} (hk : HasKey (ef s.1) k) (r : Option (V → V))
    (hr : touch = true → r = none) :
    ∃ i fr, (match (r : Option (V → V)) with
        | none => GF.get s.1 k (InclCell.read (A.access fac id))
        | some f => GF.getMut s.1 k (InclCell.write (A.access fac f))) = .ok (some i, fr) ∧
      (k, D.unwrap i.value) ∈ l ∧
      Good stamp clock read touch F B If Ib ef eb c (fr, s.2) (A.tick fac) (upd k (r.getD id (D.unwrap i.value)) l) := by
  obtain ⟨L, hL, hh⟩ := g.held
  have hnow (i : D.Item) : clock (read fac) ≤ clock (read (A.tick fac)) := by
    have := hA.2 fac id i
    cases touch with
    | true => rw [if_pos rfl] at this; rw [this.2]; exact hm.monotone (Nat.le_succ _)
    | false => rw [if_neg (by simp)] at this; rw [this.2]
  have key (f : V → V) (G : InclCell D.Item → InclCell D.Item) (hG : ∀ c : InclCell D.Item, (G c).cloned = c.cloned ∧
        (G c).value = A.access fac f c.value)
      (hu : ∀ c : InclCell D.Item, c.cloned = true → (touch = true → c.updated = false) →
        (touch = true → (G c).updated = false) ∧ ((G c).updated = false → c.updated = false ∧ ∀ v, f v = v))
      (op : F.State → K → (InclCell D.Item → InclCell D.Item) → Res (Option (InclCell D.Item) × F.State))
      (hop : AccessLaw F op If ef fun _ => True) :
      ∃ i fr, op s.1 k G = .ok (some i, fr) ∧ (k, D.unwrap i.value) ∈ l ∧
        Good stamp clock read touch F B If Ib ef eb c (fr, s.2) (A.tick fac) (upd k (f (D.unwrap i.value)) l) := by
    obtain ⟨o, fr, h1, h2, h3, h4⟩ := hop s.1 k G g.fInv trivial
    cases o with
    | none => exact absurd hk h4.1
    | some i =>
      obtain ⟨rest, h5, h6⟩ := h4
      have hi : (k, i) ∈ ef s.1 := h5.mem_iff.2 (by simp)
      have hcl := (hh.front _ hi).1
      have hup := hu i hcl fun ht => hh.clean ht _ (.inl hi)
      have hst : touch = false → stamp (G i).value = stamp i.value := by
        intro ht
        have := hA.2 fac f i.value
        rw [ht, if_neg (by simp)] at this
        rw [(hG i).2]; exact this.1
      have hv : D.unwrap (G i).value = f (D.unwrap i.value) := by rw [(hG i).2]; exact hA.1 _ _ _
      have hnew := hh.access (d := G i) (f := f) h5 hv (hG i).1 hst hup.1
        (fun hd => ⟨(hup.2 hd).1, hv.trans ((hup.2 hd).2 _)⟩)
      refine ⟨i, fr, h1, ?_, h2, g.bInv, h3 ▸ g.room, g.cap, g.pos, ?_, L, hL, (hnew.perm h6).later (hnow i.value)⟩
      · obtain ⟨-, b, b1, b2, -⟩ := hh.front _ hi
        have : k ∈ l.map Prod.fst := hh.keys ▸ List.mem_map.2 ⟨b, b1, b2⟩
        obtain ⟨e, he, hek⟩ := List.mem_map.1 this
        have := hh.seen e he (k, i) hek.symm (.inl hi)
        rw [show (k, D.unwrap i.value) = e from Prod.ext hek.symm this]
        exact he
      · rw [upd_length]; exact g.len
  cases r with
  | none =>
    exact key id (InclCell.read (A.access fac id)) (fun c => ⟨rfl, rfl⟩)
      (fun c _ hc => ⟨hc, fun h => ⟨h, fun _ => rfl⟩⟩) GF.get hF.acc.get
  | some f =>
    have ht : touch = false := by
      cases touch with
      | true => exact absurd (hr rfl) (by simp)
      | false => rfl
    exact key f (InclCell.write (A.access fac f)) (fun c => ⟨rfl, rfl⟩)
      (fun c hc _ => ⟨fun h => by simp [ht] at h, fun h => by simp [InclCell.write, hc] at h⟩) GF.getMut hF.acc.getMut

omit [LinearOrder K] in
theorem HasKey.not {X : Type} {l : List (K × X)} {k : K} (h : ¬ HasKey l k) : ∀ e ∈ l, e.1 ≠ k := by
  rintro ⟨a, x⟩ he rfl
  exact h ⟨x, he⟩

/-- The key is in the back only. -/
theorem good_downgrade (hF : Level F GF If ef) (hB : Level B GB Ib eb) {c : Nat} {s : F.State × B.State} {fac : D.Factory}
    {l : List (K × V)} (g : Good stamp clock read touch F B If Ib ef eb c s fac l) {k : K} (hk : ¬ HasKey (ef s.1) k)
    (hl : k ∈ l.map Prod.fst) :
    ∃ s', inclusiveDowngrade F B GB s k = .ok (true, s') ∧ HasKey (ef s'.1) k ∧
      Good stamp clock read touch F B If Ib ef eb c s' fac l := by
  obtain ⟨L, hL, hh⟩ := g.held
  obtain ⟨o, b1, h1, h2, h3, h4⟩ := hB.acc.get s.2 k InclCell.clone g.bInv trivial
  cases o with
  | none =>
    exfalso
    have : k ∈ (eb s.2).map Prod.fst := (hL.map Prod.fst).mem_iff.2 (hh.keys ▸ hl)
    obtain ⟨⟨a, x⟩, he, rfl⟩ := List.mem_map.1 this
    exact h4.1 ⟨x, he⟩
  | some i =>
    obtain ⟨rest, h5, h6⟩ := h4
    have hi : (k, i) ∈ L := hL.mem_iff.1 (h5.mem_iff.2 (by simp))
    have hcl := hh.clone hi (HasKey.not hk)
    have hL1 : (eb b1).Perm (upd k i.clone L) := h6.trans (upd_perm hh.nodup (hL.symm.trans h5)).symm
    obtain ⟨out, f1, p1, p2, p3, p4⟩ := hF.law.push s.1 [(k, i.clone)] g.fInv trivial
    obtain ⟨kept, q1, q2⟩ := hF.slots.pushOne s.1 (k, i.clone) out f1 g.fInv g.room p1
    have hlen := hF.slots.pushExact s.1 _ out f1 g.fInv p1
    have hb := hF.law.bounded s.1 g.fInv
    have hkey : HasKey (ef f1) k := ⟨i.clone, q1.mem_iff.2 (by simp)⟩
    have hall : ((k, i.clone) :: ef s.1).Perm (out ++ ef f1) := by perms [q1, q2]
    by_cases hpop : out.filter (fun e => e.2.updated) = []
    · refine ⟨(f1, b1), by simp [inclusiveDowngrade, h1, p1, hpop], hkey, p2, h2, p3 ▸ g.room, h3.trans g.cap, g.pos, g.len,
        _, hL1, ?_⟩
      match out, hlen with
      | [], _ => exact hcl.perm hall.symm
      | [e], _ =>
        refine hcl.drop hall ?_
        simpa using hpop
      | _ :: _ :: _, hlen => simp at hlen; omega
    · match out, hlen with
      | [], _ => simp at hpop
      | _ :: _ :: _, hlen => simp at hlen; omega
      | [e], _ =>
        have hup : e.2.updated = true := by simpa using hpop
        have ht : touch = false := by
          cases htc : touch with
          | false => rfl
          | true =>
            have := hcl.clean htc e (.inl (hall.mem_iff.2 (by simp)))
            rw [hup] at this; cases this
        have hwb := hcl.writeback hall ht
        obtain ⟨-, x, x1, x2, -⟩ := hcl.front e (hall.mem_iff.2 (by simp))
        obtain ⟨out2, ks2, b2, t1, t2, t3, t4, t5, t6, -⟩ := hB.law.takeMultiple b1 [e.1] h2
        have hn1 : ((eb b1).map Prod.fst).Nodup := (hL1.map Prod.fst).nodup_iff.2 hcl.nodup
        have hx : HasKey (eb b1) e.1 := ⟨x.2, hL1.mem_iff.2 (by rw [← x2]; exact x1)⟩
        obtain ⟨y, hy⟩ := t6 e.1 (by simp) hx
        have hout2 : out2 = [(e.1, y)] := by
          have hn2 : (out2.map Prod.fst).Nodup := by
            have := (t4.map Prod.fst).nodup_iff.2 hn1
            rw [List.map_append] at this
            exact (List.nodup_append.1 this).2.1
          match out2, t5, hy, hn2 with
          | [z], t5, hy, _ => rw [List.mem_singleton.1 hy]
          | z :: z' :: _, t5, hy, hn2 =>
            have e1 := t5 z (by simp)
            have e2 := t5 z' (by simp)
            simp only [List.mem_singleton] at e1 e2
            simp [e1, e2] at hn2
        subst hout2
        obtain ⟨out3, b3, r1, r2, r3, r4⟩ := hB.law.push b2 [e] t2 trivial
        have hlen3 := hB.slots.pushExact b2 _ out3 b3 t2 r1
        have hout3 : out3 = [] := by
          have e1 := hB.slots.size b2 t2
          have e2 := hB.slots.size b1 h2
          have e3 := hB.law.bounded b1 h2
          have e4 := t4.length_eq
          simp only [List.length_append, List.length_cons, List.length_nil] at e4 hlen3
          refine List.length_eq_zero_iff.1 ?_
          omega
        subst hout3
        have hfilter : [e].filter (fun e => e.2.updated) = [e] := by simp [hup]
        refine ⟨(f1, b3), ?_, hkey, p2, r2, p3 ▸ g.room, r3.trans (t3.trans (h3.trans g.cap)), g.pos, g.len, _, ?_, hwb⟩
        · simp only [inclusiveDowngrade, h1, Res.ok_bind, p1, hfilter]
          simp [t1, r1]
        · have : (upd k i.clone L).Perm ((e.1, y) :: eb b2) := hL1.symm.trans (by perms [t4])
          refine List.Perm.trans ?_ (upd_perm hcl.nodup this).symm
          have : (eb b3).Perm (eb b2 ++ [e]) := by simpa using r4
          exact this.trans (List.perm_append_comm (l₂ := [e]))

omit [LinearOrder K] in
/-- The key is not in the cache. -/
theorem good_absent (hB : Level B GB Ib eb) {c : Nat} {s : F.State × B.State} {fac : D.Factory}
    {l : List (K × V)} (g : Good stamp clock read touch F B If Ib ef eb c s fac l) {k : K} (hl : k ∉ l.map Prod.fst) :
    ¬ HasKey (ef s.1) k ∧ ∃ s', inclusiveDowngrade F B GB s k = .ok (false, s') ∧
      Good stamp clock read touch F B If Ib ef eb c s' fac l := by
  obtain ⟨L, hL, hh⟩ := g.held
  have hL' : k ∉ L.map Prod.fst := hh.keys ▸ hl
  refine ⟨?_, ?_⟩
  · rintro ⟨x, hx⟩
    obtain ⟨-, b, b1, b2, -⟩ := hh.front _ hx
    exact hL' (List.mem_map.2 ⟨b, b1, b2⟩)
  obtain ⟨o, b1, h1, h2, h3, h4⟩ := hB.acc.get s.2 k InclCell.clone g.bInv trivial
  cases o with
  | some i =>
    obtain ⟨rest, h5, -⟩ := h4
    exact absurd (List.mem_map.2 ⟨_, hL.mem_iff.1 (h5.mem_iff.2 (List.mem_cons_self ..)), rfl⟩) hL'
  | none =>
    exact ⟨(s.1, b1), by simp [inclusiveDowngrade, h1], g.fInv, h2, g.room, h3.trans g.cap, g.pos, g.len, L, h4.2.trans hL, hh⟩

/-- The value fetched is pushed. -/
theorem good_push (hF : Level F GF If ef) (hB : Level B GB Ib eb) (he : Evicts stamp B Ib eb)
    (hD : Stamps D stamp clock read) (hm : StrictMono clock) {c : Nat} {s : F.State × B.State} {fac : D.Factory}
    {l : List (K × V)} (g : Good stamp clock read touch F B If Ib ef eb c s fac l) {k : K} (hl : k ∉ l.map Prod.fst) (v : V) :
    ∃ out s', (decorator D (inclusive F B)).push (s, fac) [(k, v)] = .ok (out, (s', (D.wrap fac v).2)) ∧
      Good stamp clock read touch F B If Ib ef eb c s' (D.wrap fac v).2 (((k, v) :: l).take c) := by
  obtain ⟨L, hL, hh⟩ := g.held
  obtain ⟨w1, w2⟩ := hD.wrap fac v
  set x : K × InclCell D.Item := (k, InclCell.new (D.wrap fac v).1) with hx
  have hnew : Held stamp D.unwrap touch (clock (read (D.wrap fac v).2)) (ef s.1) (x :: L) ((k, v) :: l) :=
    hh.enter hl (hD.faithful fac v) (le_of_eq w1.symm) (by rw [w1, w2]; exact hm (Nat.lt_succ_self _))
  obtain ⟨out, b1, p1, p2, p3, p4⟩ := hB.law.push s.2 [x] g.bInv trivial
  obtain ⟨kept, q1, q2⟩ := hB.slots.pushOne s.2 x out b1 g.bInv (by rw [g.cap]; exact g.pos) p1
  have hlen := hB.slots.pushExact s.2 _ out b1 g.bInv p1
  rw [hB.slots.size s.2 g.bInv, hL.length_eq, g.cap] at hlen
  have hLl : L.length = l.length := by simpa using congrArg List.length hh.keys
  have hlc := g.len
  obtain ⟨outf, ksf, f1, t1, t2, t3, t4, t5, t6, -⟩ := hF.law.takeMultiple s.1 (clonedKeys out) g.fInv
  have hall : (eb b1 ++ out).Perm (x :: L) := p4.trans ((hL.append_right _).trans List.perm_append_comm)
  refine ⟨_, (f1, b1), by
    simp only [decorator, inclusive, wrapAll, List.map_cons, List.map_nil, wrap]
    rw [show [(k, InclCell.new (D.wrap fac v).1)] = [x] from rfl, p1]
    simp only [Res.ok_bind, t1]
    rfl, t2, p2, t3 ▸ g.room, p3.trans g.cap, g.pos, by simp, ?_⟩
  match out, hlen with
  | [], hlen =>
    have hlt : l.length + 1 ≤ c := by simp at hlen; omega
    have hf : outf = [] := by
      cases outf with
      | nil => rfl
      | cons z _ => have := t5 z (by simp); simp [clonedKeys] at this
    subst hf
    rw [List.take_of_length_le (by simpa using hlt)]
    exact ⟨x :: L, by simpa using hall, hnew.perm (by simpa using t4)⟩
  | _ :: _ :: _, hlen => simp at hlen; omega
  | [z], hlen =>
    have hc : l.length = c := by simp at hlen; omega
    -- the element evicted is the last one
    obtain ⟨L2, w, hw⟩ : ∃ L2 w, x :: L = L2 ++ [w] := ⟨(x :: L).dropLast, (x :: L).getLast (by simp),
      (List.dropLast_append_getLast (by simp)).symm⟩
    obtain ⟨l2, v2, hw2⟩ : ∃ l2 v2, (k, v) :: l = l2 ++ [v2] := ⟨((k, v) :: l).dropLast, ((k, v) :: l).getLast (by simp),
      (List.dropLast_append_getLast (by simp)).symm⟩
    have hnd : (x :: L).Nodup := List.Nodup.of_map _ hnew.nodup
    have hzw : z = w := by
      by_contra hne
      have hzm : z ∈ x :: L := hall.mem_iff.1 (by simp)
      have hz2 : z ∈ L2 := by
        rw [hw] at hzm
        rcases List.mem_append.1 hzm with h | h
        · exact h
        · exact absurd (List.mem_singleton.1 h) hne
      have hwb : w ∈ eb b1 := by
        have : w ∈ eb b1 ++ [z] := hall.mem_iff.2 (by rw [hw]; simp)
        rcases List.mem_append.1 this with h | h
        · exact h
        · exact absurd (List.mem_singleton.1 h).symm hne
      have hd := hnew.desc
      rw [hw] at hd
      have hlt : stamp w.2.value < stamp z.2.value := (List.pairwise_append.1 hd).2.2 z hz2 w (by simp)
      rcases he s.2 x _ b1 g.bInv p1 w hwb z (by simp) with ⟨-, hwx⟩ | hle
      · -- the last one would be the first one
        subst hwx
        cases L2 with
        | nil => cases hz2
        | cons a L3 =>
          simp only [List.cons_append, List.cons.injEq] at hw
          rw [hw.2] at hnd
          simp at hnd
      · exact absurd hle (not_le.2 hlt)
    subst hzw
    have hl2 : ((k, v) :: l).take c = l2 := by
      have : l2.length = c := by
        have := congrArg List.length hw2
        simp at this; omega
      rw [hw2, List.take_left' this]
    rw [hl2]
    rw [hw, hw2] at hnew
    refine ⟨L2, ?_, hnew.leave t4 ?_ ?_⟩
    · have : (eb b1 ++ [z]).Perm (L2 ++ [z]) := hw ▸ hall
      exact (List.perm_append_right_iff _).1 this
    · intro e hef hez
      have hes : e ∈ ef s.1 := t4.mem_iff.1 (List.mem_append_left _ hef)
      obtain ⟨-, b, b1', b2', b3', -⟩ := hnew.front e hes
      have : b = z := same_of_key hnew.nodup b1' (by simp) (b2'.trans hez)
      subst this
      obtain ⟨y, hy⟩ := t6 b.1 (by simp [clonedKeys, b3']) ⟨e.2, by rw [← hez]; exact hes⟩
      have hn := (t4.map Prod.fst).nodup_iff.2 hh.fnodup
      rw [List.map_append] at hn
      exact (List.nodup_append.1 hn).2.2 e.1 (List.mem_map_of_mem hef) b.1 (List.mem_map.2 ⟨_, hy, rfl⟩) hez
    · intro e hef
      have := t5 e hef
      simp only [clonedKeys, List.filterMap_cons, List.filterMap_nil] at this
      split at this
      · simp at this
      · rename_i h
        split at h
        · cases h; simpa using this
        · cases h

theorem find_of_mem {l : List (K × V)} (hn : (l.map Prod.fst).Nodup) {k : K} {v : V} (h : (k, v) ∈ l) :
    l.find? (fun e => e.1 = k) = some (k, v) := by
  cases hf : l.find? (fun e => e.1 = k) with
  | none =>
    have := List.find?_eq_none.1 hf _ h
    simp at this
  | some e =>
    have h1 := List.mem_of_find?_eq_some hf
    have h2 := List.find?_some hf
    rw [same_of_key hn h1 h (by simpa using h2)]

theorem find_of_not {l : List (K × V)} {k : K} (h : k ∉ l.map Prod.fst) : l.find? (fun e => e.1 = k) = none := by
  rw [List.find?_eq_none]
  intro e he
  simp only [decide_eq_true_eq]
  rintro rfl
  exact h (List.mem_map_of_mem he)

/-- One request is served as by the textbook cache. -/
theorem serve_step (hF : Level F GF If ef) (hB : Level B GB Ib eb) (he : Evicts stamp B Ib eb)
    (hD : Stamps D stamp clock read) (hA : Accesses D A stamp clock read touch) (hm : StrictMono clock) (fetch : K → V)
    {c : Nat} {s : F.State × B.State} {fac : D.Factory} {l : List (K × V)}
    (g : Good stamp clock read touch F B If Ib ef eb c s fac l) (r : Request K V) (hr : touch = true → r.2 = none) :
    ∃ s' fac', serve (decoratorGet A (inclusiveGet GF GB)) fetch (s, fac) r = .ok ((fifoServe c fetch l r).1, (s', fac')) ∧
      Good stamp clock read touch F B If Ib ef eb c s' fac' (fifoServe c fetch l r).2 := by
  obtain ⟨k, r⟩ := r
  obtain ⟨b, f1, c1, c2, c3, c4, c5, c6⟩ := hF.law.contains s.1 k g.fInv
  have g1 : Good stamp clock read touch F B If Ib ef eb c (f1, s.2) fac l :=
    ⟨c2, g.bInv, c3 ▸ g.room, g.cap, g.pos, g.len, by rw [c5]; exact g.held⟩
  by_cases hl : k ∈ l.map Prod.fst
  · -- the front level holds the key, perhaps after a copy
    have hready : ∃ s1, (if b then pure (true, (f1, s.2)) else inclusiveDowngrade F B GB (f1, s.2) k :
        Res (Bool × (F.State × B.State))) = .ok (true, s1) ∧ HasKey (ef s1.1) k ∧
        Good stamp clock read touch F B If Ib ef eb c s1 fac l := by
      cases b with
      | true => exact ⟨(f1, s.2), rfl, by rw [c5]; exact c6.1 rfl, g1⟩
      | false =>
        obtain ⟨s1, h1, h2, h3⟩ := good_downgrade hF hB g1 (k := k) (by rw [c5]; intro h; simpa using c6.2 h) hl
        exact ⟨s1, by simpa using h1, h2, h3⟩
    obtain ⟨s1, d1, d2, d3⟩ := hready
    obtain ⟨i, fr, a1, a2, a3⟩ := good_access hF hA hm d3 d2 r hr
    have hfind := find_of_mem (d3.held.elim fun _ h => h.2.nodup') a2
    have hres : fifoServe c fetch l (k, r) = ((true, D.unwrap i.value), upd k (r.getD id (D.unwrap i.value)) l) := by
      simp only [fifoServe, hfind]; rfl
    rw [hres]
    refine ⟨(fr, s1.2), A.tick fac, ?_, a3⟩
    cases r with
    | none =>
      replace a1 : GF.get s1.1 k (InclCell.read (A.access fac id)) = .ok (some i, fr) := a1
      cases b with
      | true => cases d1; simp [serve, decoratorGet, inclusiveGet, inclusiveAccess, c1, a1]; rfl
      | false =>
        replace d1 : inclusiveDowngrade F B GB (f1, s.2) k = .ok (true, s1) := d1
        simp [serve, decoratorGet, inclusiveGet, inclusiveAccess, c1, d1, a1]
        rfl
    | some f =>
      replace a1 : GF.getMut s1.1 k (InclCell.write (A.access fac f)) = .ok (some i, fr) := a1
      cases b with
      | true => cases d1; simp [serve, decoratorGet, inclusiveGet, inclusiveAccess, c1, a1]; rfl
      | false =>
        replace d1 : inclusiveDowngrade F B GB (f1, s.2) k = .ok (true, s1) := d1
        simp [serve, decoratorGet, inclusiveGet, inclusiveAccess, c1, d1, a1]
        rfl
  · have hb : b = false := by
      cases b with
      | false => rfl
      | true => exact absurd (c6.1 rfl) (by rw [← c5]; exact (good_absent hB g1 hl).1)
    subst hb
    obtain ⟨-, s1, d1, d2⟩ := good_absent hB g1 hl
    obtain ⟨out, s2, p1, p2⟩ := good_push hF hB he hD hm d2 hl (fetch k)
    have hres : fifoServe c fetch l (k, r) = ((false, fetch k), ((k, fetch k) :: l).take c) := by
      simp only [fifoServe, find_of_not hl]
    rw [hres]
    refine ⟨s2, _, ?_, p2⟩
    cases r with
    | none =>
      simp only [serve, decoratorGet, inclusiveGet, inclusiveAccess, c1, Res.ok_bind, Bool.false_eq_true, if_false, d1]
      change (do let x ← (decorator D (inclusive F B)).push (s1, fac) [(k, fetch k)]; pure ((false, fetch k), x.2) : Res _) = _
      rw [p1]
      rfl
    | some f =>
      simp only [serve, decoratorGet, inclusiveGet, inclusiveAccess, c1, Res.ok_bind, Bool.false_eq_true, if_false, d1]
      change (do let x ← (decorator D (inclusive F B)).push (s1, fac) [(k, fetch k)]; pure ((false, fetch k), x.2) : Res _) = _
      rw [p1]
      rfl

theorem serve_all (hF : Level F GF If ef) (hB : Level B GB Ib eb) (he : Evicts stamp B Ib eb)
    (hD : Stamps D stamp clock read) (hA : Accesses D A stamp clock read touch) (hm : StrictMono clock) (fetch : K → V)
    {c : Nat} (rs : List (Request K V)) (hr : touch = true → ∀ r ∈ rs, r.2 = none) :
    ∀ {s : F.State × B.State} {fac : D.Factory} {l : List (K × V)},
      Good stamp clock read touch F B If Ib ef eb c s fac l →
    ∃ s' fac', serveAll (decoratorGet A (inclusiveGet GF GB)) fetch (s, fac) rs =
        .ok ((fifoServeAll c fetch l rs).1, (s', fac')) ∧
      Good stamp clock read touch F B If Ib ef eb c s' fac' (fifoServeAll c fetch l rs).2 := by
  induction rs with
  | nil => intro s fac l g; exact ⟨s, fac, rfl, g⟩
  | cons r rs ih =>
    intro s fac l g
    obtain ⟨s1, fac1, h1, h2⟩ := serve_step hF hB he hD hA hm fetch g r fun ht => hr ht r (by simp)
    obtain ⟨s2, fac2, h3, h4⟩ := ih (fun ht r hr' => hr ht r (by simp [hr'])) h2
    exact ⟨s2, fac2, by simp only [serveAll, h1, Res.ok_bind, h3]; rfl, h4⟩

/-- The routine sorts cells by value first, as the derived order does (src/inclusive/inclusive.rs 8); flags may matter between
equal values. -/
def SortsCells {I : Type} [LE I] (srt : Sorter (K × InclCell I)) : Prop :=
  ∀ l, (srt.run l).Pairwise fun a b => a.2.value ≤ b.2.value

theorem array_evicts [LE D.Item] (hle : ∀ a b : D.Item, a ≤ b ↔ stamp b ≤ stamp a) {srt srtS : Sorter (K × InclCell D.Item)}
    (h1 : SortsCells srt) (h2 : SortsCells srtS) :
    Evicts stamp (arrayBlock (fun _ => 1) srt srtS) (Array.Inv fun _ => 1) Array.values := by
  intro s x out s' hs hp y hy z hz
  let _ : LE (InclCell D.Item) := ⟨fun a b => a.value ≤ b.value⟩
  rcases (Array.push_order (sz := fun _ => 1) (srt := srt) (srtS := srtS) h1 h2 hs hp).2 y hy z hz with ⟨g1, g2⟩ | g
  · exact .inl ⟨g1, List.mem_singleton.1 g2⟩
  · exact .inr ((hle _ _).1 g)

theorem array_level (srt srtS : Sorter (K × InclCell D.Item)) :
    Level (arrayBlock (fun _ => 1) srt srtS) (arrayGet (fun _ => 1) srt srtS) (Array.Inv fun _ => 1) Array.values where
  law := Array.lawful _ srt srtS
  acc := (Array.getLawful _ srt srtS).mono fun _ _ => fun _ _ => rfl
  slots := Array.slots srt srtS

theorem good_init [LE D.Item] {srt srtS : Sorter (K × InclCell D.Item)} {f₀ : F.State} (hi : If f₀) (h0 : ef f₀ = [])
    {c : Nat} (hr : 0 < F.capacity f₀) (hc : 0 < c) (fac : D.Factory) :
    Good stamp clock read touch F (arrayBlock (fun _ => 1) srt srtS) If (Array.Inv fun _ => 1) ef Array.values c
      (f₀, Array.new c) fac [] := by
  refine ⟨hi, (Array.new_inv _ c), hr, rfl, hc, Nat.zero_le _, [], List.Perm.refl _, ?_⟩
  rw [h0]
  exact ⟨rfl, by simp, by simp, by simp, by simp, by simp, by simp, by simp⟩

/-- Any policy that ranks by stamps. -/
theorem inclusive_fifo [LE D.Item] (hle : ∀ a b : D.Item, a ≤ b ↔ stamp b ≤ stamp a)
    {srt srtS : Sorter (K × InclCell D.Item)} (h1 : SortsCells srt) (h2 : SortsCells srtS) (hF : Level F GF If ef)
    (hD : Stamps D stamp clock read) (hA : Accesses D A stamp clock read touch) (hm : StrictMono clock)
    {f₀ : F.State} (hi : If f₀) (h0 : ef f₀ = []) {c : Nat} (hr : 0 < F.capacity f₀) (hc : F.capacity f₀ ≤ c) (fac : D.Factory)
    (fetch : K → V) (rs : List (Request K V)) (hrs : touch = true → ∀ r ∈ rs, r.2 = none) :
    ∃ s' fac', serveAll (decoratorGet A (inclusiveGet GF (arrayGet (fun _ => 1) srt srtS))) fetch ((f₀, Array.new c), fac) rs =
        .ok ((fifoServeAll c fetch [] rs).1, (s', fac')) ∧
      (s'.2.values.map Prod.fst).Perm ((fifoServeAll c fetch [] rs).2.map Prod.fst) := by
  obtain ⟨s', fac', g1, g2⟩ := serve_all (A := A) (touch := touch) hF (array_level srt srtS) (array_evicts hle h1 h2) hD hA hm
    fetch rs hrs (good_init (F := F) (If := If) (ef := ef) (srt := srt) (srtS := srtS) hi h0 hr (Nat.lt_of_lt_of_le hr hc) fac)
  obtain ⟨L, hL, hh⟩ := g2.held
  exact ⟨s', fac', g1, hh.keys ▸ hL.map Prod.fst⟩

end

/-! ## C111 -/

/-- The textbook LRU cache of `c` elements: as the FIFO one, but a key requested becomes the last used. -/
def lruServe (c : Nat) (fetch : K → V) (l : List (K × V)) (r : Request K V) : (Bool × V) × List (K × V) :=
  match l.find? fun e => e.1 = r.1 with
  | some e => ((true, e.2), (r.1, r.change e.2) :: l.filter fun x => x.1 ≠ r.1)
  | none => ((false, fetch r.1), ((r.1, fetch r.1) :: l).take c)

def lruServeAll (c : Nat) (fetch : K → V) (l : List (K × V)) : List (Request K V) → List (Bool × V) × List (K × V)
  | [] => ([], l)
  | r :: rs => let x := lruServe c fetch l r
    let y := lruServeAll c fetch x.2 rs
    (x.1 :: y.1, y.2)

/-- An `Inclusive` of Arrays counting elements, decorated. -/
abbrev levels {I : Type} (srt srtS : Sorter (K × InclCell I)) : Block K I :=
  inclusive (arrayBlock (fun _ => 1) srt srtS) (arrayBlock (fun _ => 1) srt srtS)

abbrev levelsGet {I : Type} (srt srtS : Sorter (K × InclCell I)) : GetOps (levels srt srtS) :=
  inclusiveGet (arrayGet (fun _ => 1) srt srtS) (arrayGet (fun _ => 1) srt srtS)

/-- **C111, full statement.** An `Inclusive` of two Arrays, the front one not larger than the back one, decorated with `Fifo`
(with `Lru`) and used as a cache answers requests as the textbook FIFO (LRU) cache of the capacity of the back level does. -/
def C111_full : Prop :=
  ∀ (K V : Type) (_ : LinearOrder K) (f c : Nat) (fetch : K → V) (rs : List (Request K V)), 0 < f → f ≤ c →
    (∀ srt srtS : Sorter (K × InclCell (FifoCell V)), SortsCells srt → SortsCells srtS →
      ∃ s, serveAll (decoratorGet (fifoAccess V) (levelsGet srt srtS)) fetch ((Array.new f, Array.new c), (0 : Nat)) rs =
        .ok ((fifoServeAll c fetch [] rs).1, s)) ∧
    (∀ srt srtS : Sorter (K × InclCell (LruCell V Nat)), SortsCells srt → SortsCells srtS →
      ∃ s, serveAll (decoratorGet (lruAccess V id) (levelsGet srt srtS)) fetch ((Array.new f, Array.new c), (0 : Nat)) rs =
        .ok ((lruServeAll c fetch [] rs).1, s))

/-- **C111, what holds: `Fifo`.** Whatever the front level (any container counting elements that obeys the contract), for all
requests, reads and writes: the answers are those of the textbook FIFO cache, with the values last written, and the keys held
in the back are the keys this cache holds. -/
theorem C111_fifo_partial {F : Block K (InclCell (FifoCell V))} {GF : GetOps F} {If : F.State → Prop}
    {ef : F.State → List (K × InclCell (FifoCell V))} (hF : Level (D := fifo V) F GF If ef)
    (srt srtS : Sorter (K × InclCell (FifoCell V))) (h1 : SortsCells srt) (h2 : SortsCells srtS) (f₀ : F.State) (hi : If f₀)
    (h0 : ef f₀ = []) (c : Nat) (hr : 0 < F.capacity f₀) (hc : F.capacity f₀ ≤ c) (fetch : K → V) (rs : List (Request K V)) :
    ∃ (s : F.State × Byoc.Array K (InclCell (FifoCell V))) (n : Nat),
      serveAll (decoratorGet (fifoAccess V) (inclusiveGet GF (arrayGet (fun _ => 1) srt srtS))) fetch
        ((f₀, Array.new c), (0 : Nat)) rs = .ok ((fifoServeAll c fetch [] rs).1, (s, n)) ∧
      (s.2.values.map Prod.fst).Perm ((fifoServeAll c fetch [] rs).2.map Prod.fst) :=
  inclusive_fifo (D := fifo V) (A := fifoAccess V) (fun a b => fifo_le a b) h1 h2 hF fifo_stamps fifo_accesses strictMono_id
    hi h0 hr hc (0 : Nat) fetch rs (by simp)

/-- **C111, what holds: `Lru`.** Used with `get` only, the cache answers as the textbook *FIFO* cache: reading a key changes
its copy in front only, and the back level evicts what was pushed first, however often it is read. -/
theorem C111_lru_partial [LinearOrder T] (clock : Nat → T) (hm : StrictMono clock)
    {F : Block K (InclCell (LruCell V T))} {GF : GetOps F} {If : F.State → Prop}
    {ef : F.State → List (K × InclCell (LruCell V T))} (hF : Level (D := lru V clock) F GF If ef)
    (srt srtS : Sorter (K × InclCell (LruCell V T))) (h1 : SortsCells srt) (h2 : SortsCells srtS) (f₀ : F.State) (hi : If f₀)
    (h0 : ef f₀ = []) (c : Nat) (hr : 0 < F.capacity f₀) (hc : F.capacity f₀ ≤ c) (fetch : K → V) (ks : List K) :
    ∃ (s : F.State × Byoc.Array K (InclCell (LruCell V T))) (n : Nat),
      serveAll (decoratorGet (lruAccess V clock) (inclusiveGet GF (arrayGet (fun _ => 1) srt srtS))) fetch
        ((f₀, Array.new c), (0 : Nat)) (ks.map fun k => (k, none)) =
          .ok ((fifoServeAll c fetch [] (ks.map fun k => (k, none))).1, (s, n)) ∧
      (s.2.values.map Prod.fst).Perm ((fifoServeAll c fetch [] (ks.map fun k => (k, none))).2.map Prod.fst) :=
  inclusive_fifo (D := lru V clock) (A := lruAccess V clock) (fun a b => lru_le a b) h1 h2 hF (lru_stamps clock)
    (lru_accesses clock) hm hi h0 hr hc (0 : Nat) fetch (ks.map fun k => (k, none)) (by simp)

/-! ## Concrete caches -/

def fifoCellSorter : Sorter (Nat × InclCell (FifoCell Nat)) := Sorter.ofLe (fun a b => a.2.value ≤ b.2.value)
def lruCellSorter : Sorter (Nat × InclCell (LruCell Nat Nat)) := Sorter.ofLe (fun a b => a.2.value ≤ b.2.value)

theorem fifoCellSorter_sorts : SortsCells fifoCellSorter := by
  intro l
  have : Std.Total (fun a b : Nat × InclCell (FifoCell Nat) => a.2.value ≤ b.2.value) :=
    ⟨fun a b => by simp only [fifo_le]; exact Nat.le_total _ _⟩
  have : IsTrans (Nat × InclCell (FifoCell Nat)) (fun a b => a.2.value ≤ b.2.value) :=
    ⟨fun a b c => by simp only [fifo_le]; exact fun h1 h2 => Nat.le_trans h2 h1⟩
  exact List.pairwise_insertionSort _ l

theorem lruCellSorter_sorts : SortsCells lruCellSorter := by
  intro l
  have : Std.Total (fun a b : Nat × InclCell (LruCell Nat Nat) => a.2.value ≤ b.2.value) :=
    ⟨fun a b => by simp only [lru_le]; exact Nat.le_total _ _⟩
  have : IsTrans (Nat × InclCell (LruCell Nat Nat)) (fun a b => a.2.value ≤ b.2.value) :=
    ⟨fun a b c => by simp only [lru_le]; exact fun h1 h2 => Nat.le_trans h2 h1⟩
  exact List.pairwise_insertionSort _ l

/-- What a cache with a front of 1 and a back of 2 elements answers. -/
def found (rs : List (Request Nat Nat)) : Res (List Bool) := do
  let (ans, _) ← serveAll (decoratorGet (lruAccess Nat id) (levelsGet lruCellSorter lruCellSorter)) (fun k : Nat => k * 10)
    ((Array.new 1, Array.new 2), (0 : Nat)) rs
  return ans.map Prod.fst

/-- Key 1 was just read when key 3 evicts it. -/
theorem C111_evicts_last_read : found [(1, none), (2, none), (1, none), (3, none), (1, none)] =
      .ok [false, false, true, false, false] ∧
    (lruServeAll 2 (fun k : Nat => k * 10) [] [(1, none), (2, none), (1, none), (3, none), (1, none)]).1.map Prod.fst =
      [false, false, true, false, true] := by
  decide +kernel

/-- With writes the cache is neither: a value written is the last used for the back level once the front has evicted it (key 1
survives 3 here), not before. -/
theorem C111_writes : found [(1, none), (2, none), (1, some (· + 1)), (2, none), (3, none), (1, none)] =
      .ok [false, false, true, true, false, true] ∧
    found [(1, none), (2, none), (1, some (· + 1)), (3, none), (1, none)] = .ok [false, false, true, false, false] ∧
    (fifoServeAll 2 (fun k : Nat => k * 10) [] [(1, none), (2, none), (1, some (· + 1)), (2, none), (3, none), (1, none)]).1.map
      Prod.fst = [false, false, true, true, false, false] := by
  decide +kernel

theorem C111_false : ¬ C111_full := by
  intro h
  obtain ⟨s, hs⟩ := (h Nat Nat inferInstance 1 2 (fun k => k * 10) [(1, none), (2, none), (1, none), (3, none), (1, none)]
    (by decide) (by decide)).2 lruCellSorter lruCellSorter lruCellSorter_sorts lruCellSorter_sorts
  obtain ⟨h1, h2⟩ := C111_evicts_last_read
  unfold found at h1
  replace h1 : (do
    let (ans, _) ← serveAll (decoratorGet (lruAccess Nat id) (levelsGet lruCellSorter lruCellSorter)) (fun k : Nat => k * 10)
      ((Array.new 1, Array.new 2), (0 : Nat)) [(1, none), (2, none), (1, none), (3, none), (1, none)]
    return ans.map Prod.fst : Res (List Bool)) = .ok [false, false, true, false, false] := h1
  rw [hs] at h1
  simp only [Res.ok_bind, Res.pure_eq, Res.ok.injEq] at h1
  rw [h2] at h1
  simp at h1

/-- The hypotheses are met by an Array of 2 elements in front of one of 3, and requests that read, write, miss and evict. -/
example := C111_fifo_partial (array_level (D := fifo Nat) fifoCellSorter fifoCellSorter) fifoCellSorter fifoCellSorter
  fifoCellSorter_sorts fifoCellSorter_sorts (Array.new 2) (Array.new_inv _ 2) rfl 3 (by decide) (by decide)
  (fun k => k * 10) [(1, none), (2, none), (1, some (· + 1)), (3, none), (4, none), (1, none)]

example : (do
      let (ans, _) ← serveAll (decoratorGet (fifoAccess Nat) (levelsGet fifoCellSorter fifoCellSorter)) (fun k : Nat => k * 10)
        ((Array.new 1, Array.new 2), (0 : Nat))
        [(1, none), (2, none), (1, some (· + 1)), (2, none), (1, none), (3, none), (1, none), (3, none)]
      return ans : Res (List (Bool × Nat))) =
    .ok [(false, 10), (false, 20), (true, 10), (true, 20), (true, 11), (false, 30), (false, 10), (true, 30)] := by
  decide +kernel

example := C111_lru_partial (id : Nat → Nat) strictMono_id (array_level (D := lru Nat id) lruCellSorter lruCellSorter)
  lruCellSorter lruCellSorter lruCellSorter_sorts lruCellSorter_sorts (Array.new 2) (Array.new_inv _ 2) rfl 3 (by decide)
  (by decide) (fun k => k * 10) [1, 2, 1, 3, 4, 1]

end Byoc.InclusiveCacheProps
