import Verif.Props.StackProps
import Verif.Props.BTreeProps
import Verif.Props.InclusiveProps
import Verif.Props.CompressedProps
import Verif.Props.StreamProps
import Verif.Proofs.Tiers

/-!
# C96: a write-back cache over a memory

The user keeps the values of all keys in a memory, and a container in front of it: a key missing in the
container is loaded from the memory and pushed; whatever a call hands back is written back to the memory.
-/

namespace Byoc.MemoryProps

open StackProps

variable {K V : Type} [LinearOrder K]

/-- Write elements handed back by the container to the memory. -/
def writeBack (mem : K → V) (out : List (K × V)) : K → V :=
  out.foldl (fun m e => Function.update m e.1 e.2) mem

/-- What the user does: read a key, change its value, or, to make room, evict `n`, a key, or several. -/
inductive Req (K V : Type) where
  | read (k : K)
  | write (k : K) (f : V → V)
  | pop (n : Nat)
  | take (k : K)
  | takeMultiple (ks : List K)

/-- The specification: the same requests on the memory alone, and the values seen. -/
def plain (M : K → V) : List (Req K V) → List V × (K → V)
  | [] => ([], M)
  | .read k :: rs => (M k :: (plain M rs).1, (plain M rs).2)
  | .write k f :: rs =>
    (M k :: (plain (Function.update M k (f (M k))) rs).1, (plain (Function.update M k (f (M k))) rs).2)
  | _ :: rs => plain M rs

/-- A lookup through the container: `op` is `get` or `get_mut`. -/
def through (B : Block K V) (op : B.State → K → (V → V) → Res (Option V × B.State)) (s : B.State) (mem : K → V)
    (k : K) (f : V → V) : Res (List V × B.State × (K → V)) := do
  let (o, s) ← op s k f
  match o with
  | some v => return ([v], s, mem)
  | none => do
    let (out, s) ← B.push s [(k, f (mem k))]
    return ([mem k], s, writeBack mem out)

/-- One request. -/
def serve {B : Block K V} (G : GetOps B) (s : B.State) (mem : K → V) :
    Req K V → Res (List V × B.State × (K → V))
  | .read k => through B G.get s mem k id
  | .write k f => through B G.getMut s mem k f
  | .pop n => do
    let (out, s) ← B.pop s n
    return ([], s, writeBack mem out)
  | .take k => do
    let (o, s) ← B.take s k
    return ([], s, writeBack mem o.toList)
  | .takeMultiple ks => do
    let (out, _, s) ← B.takeMultiple s ks
    return ([], s, writeBack mem out)

/-- All the requests, then `flush`: the values seen, and the memory in the end. -/
def serveAll {B : Block K V} (G : GetOps B) (s : B.State) (mem : K → V) :
    List (Req K V) → Res (List V × (K → V))
  | [] => do
    let (out, _) ← B.flush s
    return ([], writeBack mem out)
  | r :: rs => do
    let (v, s, mem) ← serve G s mem r
    let (vs, mem) ← serveAll G s mem rs
    return (v ++ vs, mem)

/-! ## Proof -/

/-- The container and the memory together hold `M`. -/
def Agrees (elems : List (K × V)) (mem M : K → V) : Prop :=
  (elems.map Prod.fst).Nodup ∧ (∀ e ∈ elems, M e.1 = e.2) ∧ ∀ k, ¬ HasKey elems k → mem k = M k

open Classical in
theorem writeBack_spec {M : K → V} : ∀ (out : List (K × V)) (mem : K → V), (∀ e ∈ out, M e.1 = e.2) →
    ∀ k, writeBack mem out k = if HasKey out k then M k else mem k
  | [], mem, _, k => by simp [writeBack, HasKey]
  | e :: out, mem, h, k => by
    have ih := writeBack_spec out (Function.update mem e.1 e.2) (fun x hx => h x (by simp [hx])) k
    rw [show writeBack mem (e :: out) = writeBack (Function.update mem e.1 e.2) out from rfl, ih]
    by_cases h1 : HasKey out k
    · have : HasKey (e :: out) k := by obtain ⟨v, hv⟩ := h1; exact ⟨v, by simp [hv]⟩
      simp [h1, this]
    · rw [if_neg h1]
      by_cases h2 : k = e.1
      · subst h2
        rw [if_pos ⟨e.2, by simp⟩]
        simp [h e (by simp)]
      · rw [Function.update_of_ne h2, if_neg]
        rintro ⟨v, hv⟩
        rcases List.mem_cons.1 hv with hv | hv
        · exact h2 (by rw [← hv])
        · exact h1 ⟨v, hv⟩

/-- Elements handed back and written to the memory. -/
theorem Agrees.shrink {l l' out : List (K × V)} {mem M : K → V} (h : Agrees l mem M)
    (hp : (l' ++ out).Perm l) : Agrees l' (writeBack mem out) M := by
  obtain ⟨h1, h2, h3⟩ := h
  have hn := (hp.map Prod.fst).nodup_iff.2 h1
  rw [List.map_append] at hn
  refine ⟨(List.nodup_append.1 hn).1, fun e he => h2 e (hp.mem_iff.1 (by simp [he])), fun k hk => ?_⟩
  rw [writeBack_spec out mem (fun e he => h2 e (hp.mem_iff.1 (by simp [he])))]
  split
  · rfl
  · rename_i hk'
    refine h3 k ?_
    rintro ⟨v, hv⟩
    rcases List.mem_append.1 (hp.mem_iff.2 hv) with hv | hv
    · exact hk ⟨v, hv⟩
    · exact hk' ⟨v, hv⟩

theorem Agrees.perm {l l' : List (K × V)} {mem M : K → V} (h : Agrees l mem M) (hp : l'.Perm l) :
    Agrees l' mem M := by
  have := h.shrink (l' := l') (out := []) (by simpa using hp)
  exact this

/-- A key loaded, and changed. -/
theorem Agrees.load {l : List (K × V)} {mem M : K → V} {k : K} (h : Agrees l mem M) (hk : ¬ HasKey l k) (f : V → V) :
    Agrees (l ++ [(k, f (mem k))]) mem (Function.update M k (f (M k))) := by
  obtain ⟨h1, h2, h3⟩ := h
  refine ⟨?_, ?_, ?_⟩
  · rw [List.map_append, List.nodup_append]
    refine ⟨h1, by simp, ?_⟩
    intro a ha b hb
    simp only [List.map_cons, List.map_nil, List.mem_singleton] at hb
    rintro rfl
    obtain ⟨⟨k', v⟩, hv, rfl⟩ := List.mem_map.1 ha
    exact hk ⟨v, hb ▸ hv⟩
  · intro e he
    rcases List.mem_append.1 he with he | he
    · have hne : e.1 ≠ k := fun hc => hk ⟨e.2, hc ▸ he⟩
      rw [Function.update_of_ne hne]
      exact h2 e he
    · rw [List.mem_singleton] at he
      subst he
      simp [h3 k hk]
  · intro k' hk'
    have hne : k' ≠ k := by rintro rfl; exact hk' ⟨f (mem k'), by simp⟩
    rw [Function.update_of_ne hne]
    exact h3 k' (fun ⟨v, hv⟩ => hk' ⟨v, by simp [hv]⟩)

/-- A value changed in the container. -/
theorem Agrees.set {l rest : List (K × V)} {mem M : K → V} {k : K} {v : V} (h : Agrees l mem M)
    (hp : l.Perm ((k, v) :: rest)) (f : V → V) :
    M k = v ∧ Agrees ((k, f v) :: rest) mem (Function.update M k (f (M k))) := by
  obtain ⟨h1, h2, h3⟩ := h
  have hv : M k = v := h2 (k, v) (hp.mem_iff.2 (by simp))
  have hn := (hp.map Prod.fst).nodup_iff.1 h1
  simp only [List.map_cons, List.nodup_cons] at hn
  refine ⟨hv, by simpa using hn, ?_, ?_⟩
  · intro e he
    rcases List.mem_cons.1 he with rfl | he
    · simp [hv]
    · have hne : e.1 ≠ k := fun hc => hn.1 (hc ▸ List.mem_map_of_mem he)
      rw [Function.update_of_ne hne]
      exact h2 e (hp.mem_iff.2 (by simp [he]))
  · intro k' hk'
    have hne : k' ≠ k := by rintro rfl; exact hk' ⟨f v, by simp⟩
    rw [Function.update_of_ne hne]
    refine h3 k' ?_
    rintro ⟨v', hv'⟩
    rcases List.mem_cons.1 (hp.mem_iff.1 hv') with hc | hc
    · exact hne (congrArg Prod.fst hc)
    · exact hk' ⟨v', by simp [hc]⟩

section
variable {B : Block K V} {G : GetOps B} {Inv : B.State → Prop} {elems : B.State → List (K × V)}
  {Pre : List (K × V) → Prop} {PreF : (V → V) → Prop}

/-- Pushing a single element whose key is not stored. -/
def PushesFresh (B : Block K V) (Inv : B.State → Prop) (elems : B.State → List (K × V)) : Prop :=
  ∀ s x, Inv s → ((elems s ++ [x]).map Prod.fst).Nodup → ∃ out s', B.push s [x] = .ok (out, s') ∧ Inv s' ∧
    (elems s' ++ out).Perm (elems s ++ [x])

/-- One lookup. -/
theorem through_spec {op : B.State → K → (V → V) → Res (Option V × B.State)} (hpush : PushesFresh B Inv elems)
    (hop : AccessLaw B op Inv elems PreF) {s : B.State} {mem M : K → V} {k : K} {f : V → V}
    (hf : PreF f) (hs : Inv s) (ha : Agrees (elems s) mem M) :
    ∃ s' mem', through B op s mem k f = .ok ([M k], s', mem') ∧ Inv s' ∧
      Agrees (elems s') mem' (Function.update M k (f (M k))) := by
  obtain ⟨o, s1, h1, h2, -, h4⟩ := hop s k f hs hf
  cases o with
  | some v =>
    obtain ⟨rest, p1, p2⟩ := h4
    obtain ⟨g1, g2⟩ := ha.set p1 f
    exact ⟨s1, mem, by simp [through, h1, g1], h2, g2.perm p2⟩
  | none =>
    have hk : ¬ HasKey (elems s1) k := fun ⟨v, hv⟩ => h4.1 ⟨v, h4.2.mem_iff.1 hv⟩
    have ha1 := ha.perm h4.2
    obtain ⟨out, s2, q1, q2, q4⟩ := hpush s1 (k, f (mem k)) h2 (ha1.load hk f).1
    have hm := ha1.2.2 k hk
    refine ⟨s2, writeBack mem out, ?_, q2, (ha1.load hk f).shrink q4⟩
    rw [← hm]
    simp [through, h1, q1]

/-- **A write-back cache is a memory**, for any container which obeys the contract. -/
theorem serveAll_spec {PreG : (V → V) → Prop} (hC : Core B Inv elems Pre) (hpush : PushesFresh B Inv elems)
    (hget : AccessLaw B G.get Inv elems PreG) (hmut : AccessLaw B G.getMut Inv elems PreF)
    (hF : Flushes B Inv elems) (hid : PreG id) (rs : List (Req K V))
    (hpop : (∃ n, Req.pop n ∈ rs) → Lawful B Inv elems Pre) (hw : ∀ k f, Req.write k f ∈ rs → PreF f) :
    ∀ (s : B.State) (mem M : K → V), Inv s → Agrees (elems s) mem M →
      serveAll G s mem rs = .ok (plain M rs) := by
  induction rs with
  | nil =>
    intro s mem M hs ha
    obtain ⟨out, s', h1, h2, h3⟩ := hF s hs
    have := ha.shrink (l' := []) h3
    have hm : writeBack mem out = M := funext fun k => this.2.2 k (by simp [HasKey])
    simp [serveAll, h1, hm, plain]
  | cons r rs ih =>
    intro s mem M hs ha
    replace ih := ih (fun ⟨n, hn⟩ => hpop ⟨n, by simp [hn]⟩) (fun k f h => hw k f (by simp [h]))
    cases r with
    | read k =>
      obtain ⟨s1, mem1, h1, h2, h3⟩ := through_spec (k := k) hpush hget hid hs ha
      simp only [id, Function.update_eq_self] at h3
      simp [serveAll, serve, h1, ih s1 mem1 M h2 h3, plain]
    | write k f =>
      obtain ⟨s1, mem1, h1, h2, h3⟩ := through_spec (k := k) hpush hmut (hw k f (by simp)) hs ha
      simp [serveAll, serve, h1, ih s1 mem1 _ h2 h3, plain]
    | pop n =>
      obtain ⟨out, s1, h1, h2, -, h4, -⟩ := (hpop ⟨n, by simp⟩).pop s n hs
      simp [serveAll, serve, h1, ih s1 _ _ h2 (ha.shrink h4), plain]
    | take k =>
      obtain ⟨o, s1, h1, h2, -, h4⟩ := hC.take s k hs
      have : (elems s1 ++ o.toList).Perm (elems s) := by
        cases o with
        | none => simpa using h4.2
        | some e => exact (List.perm_append_singleton _ _).trans h4.2
      simp [serveAll, serve, h1, ih s1 _ _ h2 (ha.shrink this), plain]
    | takeMultiple ks =>
      obtain ⟨out, ks', s1, h1, h2, -, h4, -⟩ := hC.takeMultiple s ks hs
      simp [serveAll, serve, h1, ih s1 _ _ h2 (ha.shrink h4), plain]

omit [LinearOrder K] in
theorem Core.pushesFresh (hC : Core B Inv elems Pre) (hone : ∀ x, Pre [x]) : PushesFresh B Inv elems := by
  intro s x hs _
  obtain ⟨out, s', h1, h2, -, h4⟩ := hC.push s [x] hs (hone x)
  exact ⟨out, s', h1, h2, h4⟩

/-- The same, for the containers which obey the contract as long as no key is pushed twice. -/
theorem serveAll_map {PreG : (V → V) → Prop} (hM : MapLawful B G Inv elems PreG PreF) (hF : Flushes B Inv elems)
    (hid : PreG id) (rs : List (Req K V)) (hw : ∀ k f, Req.write k f ∈ rs → PreF f) {s : B.State} (hs : Inv s)
    (he : elems s = []) (mem : K → V) : serveAll G s mem rs = .ok (plain mem rs) := by
  refine serveAll_spec hM.toCore (fun s x hs hn => ?_) hM.get hM.getMut hF hid rs (fun _ => hM.toLawful) hw s mem mem hs ?_
  · obtain ⟨out, s', h1, h2, -, h4⟩ := hM.pushFresh s [x] hs hn
    exact ⟨out, s', h1, h2, h4⟩
  · rw [he]
    exact ⟨List.nodup_nil, by simp, fun _ _ => rfl⟩

end

/-! ## C96 -/

/-- **C96 (partial).** Whatever the nesting of building blocks in front of a memory (elements of size 1, room in the
front of each `Exclusive`, no `FlushStopper`; `pop` not called if there is an `Associative`), and whatever is
read, written and evicted: no call panics, every value seen is the one last written, and after `flush` the
memory is what it would be without the container. -/
theorem C96_stacks_partial (t : Stack K V) (hw : t.WF) (hg : t.GetWF) (hf : t.NoFlushStopper) (s₀ : t.block.State)
    (hi : t.Init s₀) (hroom : t.FrontRoom s₀) (mem : K → V) (rs : List (Req K V))
    (hpop : (∃ n, Req.pop n ∈ rs) → t.NoAssociative) :
    serveAll t.gets s₀ mem rs = .ok (plain mem rs) := by
  refine serveAll_spec (t.core True hw) (Core.pushesFresh (t.core True hw) fun _ => trivial)
    (t.getLawful hw hg).get (t.getLawful hw hg).getMut (t.flushes True hw hf) trivial rs
    (fun h => t.lawful True hw (hpop h)) (fun _ _ _ => trivial) s₀ mem mem
    (t.init_inv True s₀ hi fun _ => hroom) ?_
  rw [t.init_elems s₀ hi]
  exact ⟨List.nodup_nil, by simp, fun _ _ => rfl⟩

/-- **C96 (partial), `BTree`**, for sizes that are positive and do not depend on the value. -/
theorem C96_btree_partial [LinearOrder V] (sz : K × V → Nat) (hpos : ∀ e, 0 < sz e)
    (hsame : ∀ k v w, sz (k, v) = sz (k, w)) (n : Nat) (mem : K → V) (rs : List (Req K V)) :
    serveAll (btreeGet sz) (BTree.new n) mem rs = .ok (plain mem rs) := by
  have hG := BTree.getLawful (V := V) sz hpos
  refine serveAll_spec (BTree.lawful sz).toCore (Core.pushesFresh (BTree.lawful sz).toCore fun _ => by simp)
    hG.get hG.getMut (BTree.flushes sz) (fun _ _ => rfl) rs (fun _ => BTree.lawful sz)
    (fun _ _ _ _ _ => hsame _ _ _) (BTree.new n) mem mem (BTree.new_inv sz n) ?_
  exact ⟨by simp [BTree.new], by simp [BTree.new], fun _ _ => rfl⟩

section
variable {z : Lz4} {cd : VecCodec (K × V)} {srt srtU : Sorter (K × V)}

/-- **C96 (partial), `Compressed`**, for writes which do not make an element longer, and read back by a
decoder which reads what the encoder wrote. -/
theorem C96_compressed_partial (hlaw : cd.Law) (n : Nat) (mem : K → V) (rs : List (Req K V))
    (hw : ∀ k f, Req.write k f ∈ rs → CompressedProps.NoLonger cd f) :
    serveAll (compressedGet z cd srt srtU) (Compressed.new n) mem rs = .ok (plain mem rs) := by
  have hnew := CompressedProps.new_holds (z := z) (cd := cd) (K := K) (V := V) n
  have he := hnew.elems hlaw
  refine serveAll_map (CompressedProps.mapLawful hlaw) ?_ rfl rs hw ⟨⟨_, hnew⟩, by rw [he]; simp⟩ he mem
  intro s hs
  obtain ⟨c', h1, h2, -⟩ := Compressed.flush_spec hlaw (hs.1.holds hlaw)
  exact ⟨_, c', h1, h2.elems hlaw, List.Perm.refl _⟩

end

section
variable {F B : Block K (InclCell V)} {GF : GetOps F} {GB : GetOps B} {If : F.State → Prop}
  {Ib : B.State → Prop} {ef : F.State → List (K × InclCell V)} {eb : B.State → List (K × InclCell V)}

theorem inclusive_flushes (hF : Lawful F If ef fun _ => True) (gF : GetLawful F GF If ef fun _ => True)
    (sF : Slots F If ef) (fF : Flushes F If ef)
    (hB : Lawful B Ib eb fun _ => True) (gB : GetLawful B GB Ib eb fun _ => True)
    (sB : Slots B Ib eb) (fB : Flushes B Ib eb) :
    Flushes (inclusive F B)
      (fun s => (If s.1 ∧ Ib s.2 ∧ Inclusive.Consistent (ef s.1) (eb s.2)) ∧ B.capacity s.2 ≤ F.capacity s.1)
      (fun s => Inclusive.vis (ef s.1) (eb s.2)) := by
  intro s hs
  obtain ⟨out, s', h1, -, -, h4⟩ := (Inclusive.mapLawful hF gF sF fF hB gB sB fB).flush s hs
  have hnil : Inclusive.vis (ef s'.1) (eb s'.2) = [] := by
    obtain ⟨⟨fo, f1⟩, q1, h1⟩ := bind_eq_ok (show (F.flush s.1 >>= _) = _ from h1)
    obtain ⟨⟨bo, ks', b1⟩, q2, h1⟩ := bind_eq_ok h1
    obtain ⟨⟨r, b2⟩, q3, h1⟩ := bind_eq_ok h1
    simp only at h1
    split at h1
    · obtain ⟨⟨o2, b3⟩, q4, h1⟩ := bind_eq_ok h1
      cases h1
      obtain ⟨_, _, b1', e2, i2, -⟩ := hB.takeMultiple s.2 _ hs.1.2.1
      rw [q2] at e2; cases e2
      obtain ⟨_, b2', e3, i3, -⟩ := hB.push b1 _ i2 trivial
      rw [q3] at e3; cases e3
      obtain ⟨_, b3', e4, i4, -⟩ := fB b2 i3
      rw [q4] at e4; cases e4
      simp [Inclusive.vis, i4]
    · cases h1
  refine ⟨out, s', h1, hnil, ?_⟩
  simpa [hnil] using h4

/-- **C96 (partial), `Inclusive`**, when the front level is as large as the back one. -/
theorem C96_inclusive_partial (hF : Lawful F If ef fun _ => True) (gF : GetLawful F GF If ef fun _ => True)
    (sF : Slots F If ef) (fF : Flushes F If ef)
    (hB : Lawful B Ib eb fun _ => True) (gB : GetLawful B GB Ib eb fun _ => True)
    (sB : Slots B Ib eb) (fB : Flushes B Ib eb) (f₀ : F.State) (b₀ : B.State) (hf : If f₀) (hb : Ib b₀)
    (hef : ef f₀ = []) (heb : eb b₀ = []) (hcap : B.capacity b₀ ≤ F.capacity f₀) (mem : K → V)
    (rs : List (Req K V)) :
    serveAll (inclusiveGet GF GB) (f₀, b₀) mem rs = .ok (plain mem rs) := by
  refine serveAll_map (Inclusive.mapLawful hF gF sF fF hB gB sB fB) (inclusive_flushes hF gF sF fF hB gB sB fB)
    rfl rs (fun _ _ _ => trivial) ⟨⟨hf, hb, ?_⟩, hcap⟩ ?_ mem
  · rw [hef, heb]
    exact ⟨by simp, by simp, by simp, by simp⟩
  · simp [Inclusive.vis, heb]

end

/-! ### What does not hold -/

/-- **C96, full statement**: the same for an `Inclusive` whose front level is smaller than the back one
(the constructor panics if it is larger). -/
def C96_full : Prop :=
  ∀ m n : Nat, 0 < m → m ≤ n → ∀ (mem : Nat → Nat) (rs : List (Req Nat Nat)),
    serveAll InclusiveProps.twoGets (Array.new m, Array.new n) mem rs = .ok (plain mem rs)

/-- Key 3 is written, then keys are read. -/
def writeThenRead : List (Req Nat Nat) := [.write 3 (· + 1), .read 3, .read 2, .read 2, .read 1]

/-- **A write is lost.** `Inclusive<Array(1), Array(2)>`: the value of key 3 read afterwards in the memory is
the one from before the write. -/
theorem C96_inclusive_loses :
    (do let (vs, mem) ← serveAll InclusiveProps.twoGets (Array.new 1, Array.new 2) (fun k => 10 * k) writeThenRead
        return (vs, mem 3) : Res (List Nat × Nat)) = .ok ([30, 31, 20, 20, 10], 30) ∧
    (plain (fun k => 10 * k) writeThenRead).2 3 = 31 := by
  constructor
  · decide +kernel
  · decide +kernel

theorem C96_false : ¬ C96_full := by
  intro h
  have h1 := C96_inclusive_loses
  rw [h 1 2 (by decide) (by decide) (fun k => 10 * k) writeThenRead] at h1
  have h2 := h1.1
  simp only [Res.ok_bind, Res.pure_eq, Res.ok.injEq, Prod.mk.injEq] at h2
  omega

/-- **A write is lost** in a Stream container too: `flush` hands nothing back. -/
theorem C96_stream_loses :
    (do let (vs, mem) ← serveAll (byteStreamGet StreamProps.small) (ByteStream.new 16) (fun _ => 0)
          [.write 1 (fun _ => 1)]
        return (vs, mem 1) : Res (List _ × _)) = .ok ([0], 0) := by
  decide +kernel

/-! ### Concrete caches -/

/-- `Profiler<Exclusive<Array(1), Batch<Array(2), Array(1)>>>`. -/
def demoStack : Stack Nat Nat :=
  .profiler (.exclusive (.array (fun _ => 1) ArrayProps.natSorter ArrayProps.natSorter)
    (.batch (.array (fun _ => 1) ArrayProps.natSorter ArrayProps.natSorter)))

def demoNew : demoStack.block.State := ((Array.new 1, [Array.new 2, Array.new 1]), {})

def demoReqs : List (Req Nat Nat) :=
  [.write 1 (· + 1), .read 2, .write 3 (· * 2), .read 1, .write 5 (· + 7), .write 1 (· + 1), .pop 2, .read 3,
    .take 1, .takeMultiple [5, 2], .read 1]

example : serveAll demoStack.gets demoNew (fun k => 10 * k) demoReqs = .ok (plain (fun k => 10 * k) demoReqs) :=
  C96_stacks_partial demoStack ⟨⟨.inl trivial, trivial⟩, trivial, trivial⟩
    ⟨fun _ => rfl, fun _ => rfl, fun _ => rfl, fun _ => rfl⟩ ⟨trivial, trivial⟩ demoNew
    ⟨⟨⟨1, rfl⟩, by
      intro x hx
      rcases List.mem_cons.1 hx with rfl | hx
      · exact ⟨2, rfl⟩
      · rcases List.mem_cons.1 hx with rfl | hx
        · exact ⟨1, rfl⟩
        · cases hx⟩, rfl⟩
    ⟨Nat.zero_lt_one, trivial, by intro x hx; trivial⟩ _ _ (fun _ => ⟨trivial, trivial⟩)

example : (plain (fun k : Nat => 10 * k) demoReqs).1 = [10, 20, 30, 11, 50, 11, 60, 12] := by decide +kernel

example := C96_inclusive_partial InclusiveProps.cellArray_lawful InclusiveProps.cellArray_get (Array.slots _ _)
  InclusiveProps.cellArray_flushes InclusiveProps.cellArray_lawful InclusiveProps.cellArray_get (Array.slots _ _)
  InclusiveProps.cellArray_flushes (Array.new 2) (Array.new 2) (Array.new_inv _ 2) (Array.new_inv _ 2) rfl rfl
  (le_refl _) (fun k => 10 * k) writeThenRead

end Byoc.MemoryProps
