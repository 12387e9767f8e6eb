import Verif.Proofs.CompressedFaults
import Verif.Props.CompressedProps

/-!
# C118: `Compressed` containers when the operations of their stream fail
-/

namespace Byoc.CompressedFaultProps

open Byoc.CompressedFaults
open Byoc.Faults (Fate Disk Out M bind_ok bind_err bind_panic get_bind)
open Compressed (Holds elems)

variable {K V : Type}

/-! ## Specification -/

/-- The calls of the model without failures (C28, C29, C30). -/
def plain [LinearOrder K] (z : Lz4) (cd : VecCodec (K × V)) (srt srtU : Sorter (K × V)) (c : Compressed) :
    Req K V → Res (Ans K V × Compressed)
  | .size => .ok (.nat (c.size z), c)
  | .contains k => .ok (.bool (c.contains z cd k), c)
  | .take k => do let (o, c) ← c.take z cd k; pure (.opt o, c)
  | .takeMultiple ks => do let (l, ks, c) ← c.takeMultiple z cd ks; pure (.keyed l ks, c)
  | .pop n => do let (l, c) ← c.pop z cd srt n; pure (.many l, c)
  | .push l => do let (l, c) ← c.push z cd srtU l; pure (.many l, c)
  | .flush => do let (l, c) ← c.flush z cd; pure (.many l, c)
  | .get k => do let (o, c) ← c.get z cd k id; pure (.val o, c)
  | .getMut k f => do let (o, c) ← c.getMut z cd k f; pure (.val o, c)

/-- What a call answers when it cannot read the stream: what an empty container that accepts nothing answers. -/
def blind : Req K V → Ans K V
  | .size => .nat 0
  | .contains _ => .bool false
  | .take _ => .opt none
  | .takeMultiple ks => .keyed [] ks
  | .pop _ => .many []
  | .push l => .many l
  | .flush => .many []
  | .get _ => .val none
  | .getMut _ _ => .val none

/-- What a call gives to the container; a `push` that panics drops what it was given. -/
def given : Req K V → Out (Ans K V) → List (K × V)
  | .push l, .ok _ => l
  | _, _ => []

/-- What a call hands back. -/
def handed : Out (Ans K V) → List (K × V)
  | .ok (.opt (some e)) => [e]
  | .ok (.many l) => l
  | _ => []

/-- The calls that move elements or look at them, without writing in them. -/
def Simple : Req K V → Prop
  | .takeMultiple _ => False
  | .getMut _ _ => False
  | _ => True

/-- The state after a history on an empty container, in which reads and resizes may have failed. -/
def After [LinearOrder K] (z : Lz4) (cd : VecCodec (K × V)) (srt srtU : Sorter (K × V)) (c : Compressed) : Prop :=
  ∃ (cap : Nat) (calls : List (Req K V)) (d : Disk), (∀ r ∈ calls, Simple r) ∧ Mild d ∧
    (run z cd srt srtU calls d (Compressed.new cap)).2.2 = c

/-- The stream can be read, then its contents are discarded, then writing fails after `n` bytes. -/
def Fatal (n : Nat) (d : Disk) : Prop :=
  (d = { seeks := [.ok, .err] } ∧ n = 0) ∨ (d = { writes := [.err] } ∧ n = 0) ∨ d = { writes := [.cut n] }

/-! ## Proofs -/

/-- How a call may end: as without failures; or it does nothing. -/
def Ends [LinearOrder K] (z : Lz4) (cd : VecCodec (K × V)) (srt srtU : Sorter (K × V)) (r : Req K V) (d : Disk) (c : Compressed)
    (o : Out (Ans K V)) (c' : Compressed) : Prop :=
  (∃ a, o = .ok a ∧ plain z cd srt srtU c r = .ok (a, c')) ∨
  (o = .panic ∧ c' = c ∧ plain z cd srt srtU c r = .panic) ∨
  (o = .ok (blind r) ∧ c' = c ∧ (Fate.err ∈ d.reads ∨ Fate.err ∈ d.resizes)) ∨
  (o = .panic ∧ c' = c ∧ Fate.err ∈ d.resizes)

/-- The end of the calls that write. -/
theorem after_write {α : Type} {z : Lz4} {cd : VecCodec (K × V)} (l : List (K × V)) (a : α) (d : Disk) (hd : Mild d)
    (c : Compressed) : ∃ o d' c', (M.expect (write z cd l) >>= fun _ => pure a) d c = (o, d', c') ∧ d'.Le d ∧
      ((o = .ok a ∧ c.rewrite z cd l = .ok c') ∨
        (o = .panic ∧ c' = c ∧ (c.rewrite z cd l = .panic ∨ Fate.err ∈ d.resizes))) := by
  obtain ⟨o, d2, c2, g1, g2, ⟨rfl, g3⟩ | ⟨rfl, rfl, g3⟩⟩ := rewrite_run (z := z) (cd := cd) l d hd c
  · exact ⟨_, _, _, bind_ok g1, g2, Or.inl ⟨rfl, g3⟩⟩
  · exact ⟨_, _, _, bind_panic g1, g2, Or.inr ⟨rfl, rfl, g3⟩⟩

/-- `push` of the model without failures, with its three cases in one. -/
theorem plain_push {z : Lz4} {cd : VecCodec (K × V)} {srtU : Sorter (K × V)} {c : Compressed} {values vec : List (K × V)}
    {b eb : List UInt8} (h1 : c.readBytes z = some b) (h2 : parse cd b = some vec) (h3 : cd.encode values = some eb) :
    c.push z cd srtU values = (do
      let room ← Res.sub c.capacity b.length
      let c' ← c.rewrite z cd (split cd srtU c.capacity eb.length room vec values).1
      pure ((split cd srtU c.capacity eb.length room vec values).2, c')) := by
  have hp : (if b = [] then some [] else cd.dec b) = parse cd b := rfl
  unfold Compressed.push
  simp only [h1, hp, h2, h3]
  cases Res.sub c.capacity b.length with
  | panic => rfl
  | ok room =>
    simp only [Res.ok_bind]
    unfold split
    split_ifs <;> rfl

theorem call_ends [LinearOrder K] (z : Lz4) (cd : VecCodec (K × V)) (srt srtU : Sorter (K × V)) (r : Req K V) (d : Disk)
    (hd : Mild d) (c : Compressed) :
    ∃ o d' c', call z cd srt srtU r d c = (o, d', c') ∧ d'.Le d ∧ Ends z cd srt srtU r d c o c' := by
  have hdr : ∀ {p : Prop}, (p ∧ (Fate.err ∈ d.reads ∨ Fate.err ∈ d.seeks)) → p ∧ Fate.err ∈ d.reads :=
    fun h => ⟨h.1, h.2.resolve_right hd.1⟩
  cases r with
  | size =>
    obtain ⟨o, d1, h1, h2, h3⟩ := readBytes_run (z := z) d c
    have hs : CompressedFaults.size z d c = (.ok (o.elim 0 List.length), d1, c) := by
      unfold CompressedFaults.size; rw [bind_ok h1]; cases o <;> rfl
    refine ⟨_, _, _, bind_ok hs, h2, ?_⟩
    rcases h3 with rfl | h3
    · refine Or.inl ⟨_, rfl, ?_⟩
      simp only [plain, Compressed.size]
      cases c.readBytes z <;> rfl
    · obtain ⟨rfl, h4⟩ := hdr h3
      exact Or.inr (Or.inr (Or.inl ⟨rfl, rfl, Or.inl h4⟩))
  | contains k =>
    obtain ⟨o, d1, h1, h2, h3⟩ := read_run (z := z) (cd := cd) d c
    have hs : CompressedFaults.contains z cd k d c =
        (.ok (o.elim false fun l => l.any (fun e => decide (e.1 = k))), d1, c) := by
      unfold CompressedFaults.contains; rw [bind_ok h1]; cases o <;> rfl
    refine ⟨_, _, _, bind_ok hs, h2, ?_⟩
    rcases h3 with rfl | h3
    · refine Or.inl ⟨_, rfl, ?_⟩
      simp only [plain, Compressed.contains]
      cases c.read z cd <;> rfl
    · obtain ⟨rfl, h4⟩ := hdr h3
      exact Or.inr (Or.inr (Or.inl ⟨rfl, rfl, Or.inl h4⟩))
  | get k =>
    obtain ⟨o, d1, h1, h2, h3⟩ := read_run (z := z) (cd := cd) d c
    have hs : CompressedFaults.get' z cd k d c =
        (.ok (o.elim none fun l => (l.find? (fun e => decide (e.1 = k))).map Prod.snd), d1, c) := by
      unfold CompressedFaults.get'; rw [bind_ok h1]; cases o <;> rfl
    refine ⟨_, _, _, bind_ok hs, h2, ?_⟩
    rcases h3 with rfl | h3
    · refine Or.inl ⟨_, rfl, ?_⟩
      simp only [plain, Compressed.get]
      cases c.read z cd <;> rfl
    · obtain ⟨rfl, h4⟩ := hdr h3
      exact Or.inr (Or.inr (Or.inl ⟨rfl, rfl, Or.inl h4⟩))
  | take k =>
    obtain ⟨o, d1, h1, h2, h3⟩ := read_run (z := z) (cd := cd) d c
    rcases h3 with rfl | h3
    · simp only [Ends, plain, Compressed.take]
      cases hr : c.read z cd with
      | none =>
        rw [hr] at h1
        have hg : CompressedFaults.take z cd k d c = (.ok none, d1, c) := by
          unfold CompressedFaults.take; rw [bind_ok h1]; rfl
        exact ⟨_, _, _, bind_ok hg, h2, Or.inl ⟨_, rfl, rfl⟩⟩
      | some l =>
        rw [hr] at h1
        simp only
        cases hf : findKey l k with
        | none =>
          have hg : CompressedFaults.take z cd k d c = (.ok none, d1, c) := by
            unfold CompressedFaults.take; rw [bind_ok h1]; simp only [hf]; rfl
          exact ⟨_, _, _, bind_ok hg, h2, Or.inl ⟨_, rfl, rfl⟩⟩
        | some i =>
          obtain ⟨e, he, -⟩ := findKey_some hf
          obtain ⟨o, d2, c2, g1, g2, g3⟩ := after_write (z := z) (cd := cd) (swapRemove l i) (some e) d1 (hd.le h2) c
          have hg : CompressedFaults.take z cd k d c = (o, d2, c2) := by
            unfold CompressedFaults.take; rw [bind_ok h1]; simp only [hf, he]; exact (bind_ok rfl).trans g1
          rcases g3 with ⟨rfl, g3⟩ | ⟨rfl, rfl, g3⟩
          · exact ⟨_, _, _, bind_ok hg, g2.trans h2, Or.inl ⟨_, rfl, by simp [he, Res.unwrap, g3]⟩⟩
          · refine ⟨.panic, _, _, bind_panic hg, g2.trans h2, ?_⟩
            rcases g3 with g3 | g3
            · exact Or.inr (Or.inl ⟨rfl, rfl, by simp [he, Res.unwrap, g3]⟩)
            · exact Or.inr (Or.inr (Or.inr ⟨rfl, rfl, h2.4.subset g3⟩))
    · obtain ⟨rfl, h4⟩ := hdr h3
      have hg : CompressedFaults.take z cd k d c = (.ok none, d1, c) := by
        unfold CompressedFaults.take; rw [bind_ok h1]; rfl
      exact ⟨_, _, _, bind_ok hg, h2, Or.inr (Or.inr (Or.inl ⟨rfl, rfl, Or.inl h4⟩))⟩
  | takeMultiple ks =>
    obtain ⟨o, d1, h1, h2, h3⟩ := read_run (z := z) (cd := cd) d c
    rcases h3 with rfl | h3
    · simp only [Ends, plain, Compressed.takeMultiple]
      cases hr : c.read z cd with
      | none =>
        rw [hr] at h1
        have hg : CompressedFaults.takeMultiple z cd ks d c = (.ok ([], ks), d1, c) := by
          unfold CompressedFaults.takeMultiple; rw [bind_ok h1]; rfl
        exact ⟨_, _, _, bind_ok hg, h2, Or.inl ⟨_, rfl, rfl⟩⟩
      | some l =>
        rw [hr] at h1
        simp only
        cases ho : Compressed.removeIdxs ((Compressed.matchesOf (sortKeys ks) 0 l).map Prod.fst).reverse l with
        | panic =>
          have hg : CompressedFaults.takeMultiple z cd ks d c = (.panic, d1, c) := by
            unfold CompressedFaults.takeMultiple; rw [bind_ok h1]; simp only [ho]; rfl
          exact ⟨_, _, _, bind_panic hg, h2, Or.inr (Or.inl ⟨rfl, rfl, rfl⟩)⟩
        | ok q =>
          obtain ⟨out, l'⟩ := q
          cases hk : Compressed.removeIdxs (((Compressed.matchesOf (sortKeys ks) 0 l).map Prod.snd).insertionSort
              (· ≤ ·)).reverse (sortKeys ks) with
          | panic =>
            have hg : CompressedFaults.takeMultiple z cd ks d c = (.panic, d1, c) := by
              unfold CompressedFaults.takeMultiple; rw [bind_ok h1]; simp only [ho, hk]; rfl
            exact ⟨_, _, _, bind_panic hg, h2, Or.inr (Or.inl ⟨rfl, rfl, by simp⟩)⟩
          | ok q =>
            obtain ⟨gone, keys⟩ := q
            by_cases hn : out = []
            · have hg : CompressedFaults.takeMultiple z cd ks d c = (.ok (out, keys), d1, c) := by
                unfold CompressedFaults.takeMultiple; rw [bind_ok h1]; simp only [ho, hk]
                refine (bind_ok rfl).trans ((bind_ok rfl).trans ?_)
                simp only [if_pos hn]; rfl
              exact ⟨_, _, _, bind_ok hg, h2, Or.inl ⟨_, rfl, by simp [hn]⟩⟩
            · obtain ⟨o, d2, c2, g1, g2, g3⟩ := after_write (z := z) (cd := cd) l' (out, keys) d1 (hd.le h2) c
              have hg : CompressedFaults.takeMultiple z cd ks d c = (o, d2, c2) := by
                unfold CompressedFaults.takeMultiple; rw [bind_ok h1]; simp only [ho, hk]
                refine (bind_ok rfl).trans ((bind_ok rfl).trans ?_)
                simp only [if_neg hn]; exact g1
              rcases g3 with ⟨rfl, g3⟩ | ⟨rfl, rfl, g3⟩
              · exact ⟨_, _, _, bind_ok hg, g2.trans h2, Or.inl ⟨_, rfl, by simp [hn, g3]⟩⟩
              · refine ⟨.panic, _, _, bind_panic hg, g2.trans h2, ?_⟩
                rcases g3 with g3 | g3
                · exact Or.inr (Or.inl ⟨rfl, rfl, by simp [hn, g3]⟩)
                · exact Or.inr (Or.inr (Or.inr ⟨rfl, rfl, h2.4.subset g3⟩))
    · obtain ⟨rfl, h4⟩ := hdr h3
      have hg : CompressedFaults.takeMultiple z cd ks d c = (.ok ([], ks), d1, c) := by
        unfold CompressedFaults.takeMultiple; rw [bind_ok h1]; rfl
      exact ⟨_, _, _, bind_ok hg, h2, Or.inr (Or.inr (Or.inl ⟨rfl, rfl, Or.inl h4⟩))⟩
  | pop n =>
    obtain ⟨o, d1, h1, h2, h3⟩ := read_run (z := z) (cd := cd) d c
    rcases h3 with rfl | h3
    · simp only [Ends, plain, Compressed.pop]
      cases hr : c.read z cd with
      | none =>
        rw [hr] at h1
        have hg : CompressedFaults.pop z cd srt n d c = (.ok [], d1, c) := by
          unfold CompressedFaults.pop; rw [bind_ok h1]; rfl
        exact ⟨_, _, _, bind_ok hg, h2, Or.inl ⟨_, rfl, rfl⟩⟩
      | some l =>
        rw [hr] at h1
        simp only
        by_cases hl : l = []
        · have hg : CompressedFaults.pop z cd srt n d c = (.ok [], d1, c) := by
            unfold CompressedFaults.pop; rw [bind_ok h1]; simp only [if_pos hl]; rfl
          exact ⟨_, _, _, bind_ok hg, h2, Or.inl ⟨_, rfl, by simp [hl]⟩⟩
        · by_cases hn : (findCutAtSize cd.size n (srt.run l)).2.1 < n
          · obtain ⟨d2, g1, ⟨g2, g3⟩ | g2⟩ := empty_run d1 c
            · have hg : CompressedFaults.pop z cd srt n d c = (.ok [], d2, c) := by
                unfold CompressedFaults.pop; rw [bind_ok h1]; simp only [if_neg hl, if_pos hn]
                exact (bind_ok (Faults.attempt_err g2)).trans rfl
              exact ⟨_, _, _, bind_ok hg, g1.trans h2, Or.inr (Or.inr (Or.inl ⟨rfl, rfl, Or.inr (h2.4.subset g3)⟩))⟩
            · have hg : CompressedFaults.pop z cd srt n d c = (.ok (srt.run l), d2, { c with stream := c.stream.resize 0 }) := by
                unfold CompressedFaults.pop; rw [bind_ok h1]; simp only [if_neg hl, if_pos hn]
                exact (bind_ok (Faults.attempt_ok g2)).trans rfl
              exact ⟨_, _, _, bind_ok hg, g1.trans h2, Or.inl ⟨_, rfl, by simp [hl, hn]⟩⟩
          · obtain ⟨o, d2, c2, g1, g2, g3⟩ := after_write (z := z) (cd := cd)
              ((srt.run l).take (findCutAtSize cd.size n (srt.run l)).1)
              ((srt.run l).drop (findCutAtSize cd.size n (srt.run l)).1) d1 (hd.le h2) c
            have hg : CompressedFaults.pop z cd srt n d c = (o, d2, c2) := by
              unfold CompressedFaults.pop; rw [bind_ok h1]; simp only [if_neg hl, if_neg hn]; exact g1
            rcases g3 with ⟨rfl, g3⟩ | ⟨rfl, rfl, g3⟩
            · exact ⟨_, _, _, bind_ok hg, g2.trans h2, Or.inl ⟨_, rfl, by simp [hl, hn, g3]⟩⟩
            · refine ⟨.panic, _, _, bind_panic hg, g2.trans h2, ?_⟩
              rcases g3 with g3 | g3
              · exact Or.inr (Or.inl ⟨rfl, rfl, by simp [hl, hn, g3]⟩)
              · exact Or.inr (Or.inr (Or.inr ⟨rfl, rfl, h2.4.subset g3⟩))
    · obtain ⟨rfl, h4⟩ := hdr h3
      have hg : CompressedFaults.pop z cd srt n d c = (.ok [], d1, c) := by
        unfold CompressedFaults.pop; rw [bind_ok h1]; rfl
      exact ⟨_, _, _, bind_ok hg, h2, Or.inr (Or.inr (Or.inl ⟨rfl, rfl, Or.inl h4⟩))⟩
  | flush =>
    obtain ⟨o, d1, h1, h2, h3⟩ := read_run (z := z) (cd := cd) d c
    rcases h3 with rfl | h3
    · simp only [Ends, plain, Compressed.flush]
      cases hr : c.read z cd with
      | none =>
        rw [hr] at h1
        have hg : CompressedFaults.flush z cd d c = (.ok [], d1, c) := by
          unfold CompressedFaults.flush; rw [bind_ok h1]; rfl
        exact ⟨_, _, _, bind_ok hg, h2, Or.inl ⟨_, rfl, rfl⟩⟩
      | some l =>
        rw [hr] at h1
        simp only
        obtain ⟨d2, g1, ⟨g2, g3⟩ | g2⟩ := empty_run d1 c
        · have hg : CompressedFaults.flush z cd d c = (.ok [], d2, c) := by
            unfold CompressedFaults.flush; rw [bind_ok h1]
            exact (bind_ok (Faults.attempt_err g2)).trans rfl
          exact ⟨_, _, _, bind_ok hg, g1.trans h2, Or.inr (Or.inr (Or.inl ⟨rfl, rfl, Or.inr (h2.4.subset g3)⟩))⟩
        · have hg : CompressedFaults.flush z cd d c = (.ok l, d2, { c with stream := c.stream.resize 0 }) := by
            unfold CompressedFaults.flush; rw [bind_ok h1]
            exact (bind_ok (Faults.attempt_ok g2)).trans rfl
          exact ⟨_, _, _, bind_ok hg, g1.trans h2, Or.inl ⟨_, rfl, rfl⟩⟩
    · obtain ⟨rfl, h4⟩ := hdr h3
      have hg : CompressedFaults.flush z cd d c = (.ok [], d1, c) := by
        unfold CompressedFaults.flush; rw [bind_ok h1]; rfl
      exact ⟨_, _, _, bind_ok hg, h2, Or.inr (Or.inr (Or.inl ⟨rfl, rfl, Or.inl h4⟩))⟩
  | getMut k f =>
    obtain ⟨o, d1, h1, h2, h3⟩ := read_run (z := z) (cd := cd) d c
    rcases h3 with rfl | h3
    · simp only [Ends, plain, Compressed.getMut]
      cases hr : c.read z cd with
      | none =>
        rw [hr] at h1
        have hg : CompressedFaults.getMut z cd k f d c = (.ok none, d1, c) := by
          unfold CompressedFaults.getMut; rw [bind_ok h1]; rfl
        exact ⟨_, _, _, bind_ok hg, h2, Or.inl ⟨_, rfl, rfl⟩⟩
      | some l =>
        rw [hr] at h1
        simp only
        cases hf : findKey l k with
        | none =>
          have hg : CompressedFaults.getMut z cd k f d c = (.ok none, d1, c) := by
            unfold CompressedFaults.getMut; rw [bind_ok h1]; simp only [hf]; rfl
          exact ⟨_, _, _, bind_ok hg, h2, Or.inl ⟨_, rfl, rfl⟩⟩
        | some i =>
          obtain ⟨e, he, -⟩ := findKey_some hf
          obtain ⟨o, d2, c2, g1, g2, g3⟩ := rewrite_run (z := z) (cd := cd) (l.set i (e.1, f e.2)) d1 (hd.le h2) c
          have hc : onCopy (M.expect (write z cd (l.set i (e.1, f e.2)))) d1 c =
              (o, d2, { c with stream := { c.stream with vec := c2.stream.vec } }) := by
            unfold onCopy; rw [g1]
          rcases g3 with ⟨rfl, g3⟩ | ⟨rfl, rfl, g3⟩
          · have hg : CompressedFaults.getMut z cd k f d c =
                (.ok (some e.2), d2, { c with stream := { c.stream with vec := c2.stream.vec } }) := by
              unfold CompressedFaults.getMut; rw [bind_ok h1]; simp only [hf, he]
              exact (bind_ok rfl).trans (bind_ok hc)
            exact ⟨_, _, _, bind_ok hg, g2.trans h2, Or.inl ⟨_, rfl, by simp [he, Res.unwrap, g3]⟩⟩
          · have hg : CompressedFaults.getMut z cd k f d c2 = (.panic, d2, c2) := by
              unfold CompressedFaults.getMut; rw [bind_ok h1]; simp only [hf, he]
              exact (bind_ok rfl).trans (bind_panic hc)
            refine ⟨.panic, _, _, bind_panic hg, g2.trans h2, ?_⟩
            rcases g3 with g3 | g3
            · exact Or.inr (Or.inl ⟨rfl, rfl, by simp [he, Res.unwrap, g3]⟩)
            · exact Or.inr (Or.inr (Or.inr ⟨rfl, rfl, h2.4.subset g3⟩))
    · obtain ⟨rfl, h4⟩ := hdr h3
      have hg : CompressedFaults.getMut z cd k f d c = (.ok none, d1, c) := by
        unfold CompressedFaults.getMut; rw [bind_ok h1]; rfl
      exact ⟨_, _, _, bind_ok hg, h2, Or.inr (Or.inr (Or.inl ⟨rfl, rfl, Or.inl h4⟩))⟩
  | push values =>
    obtain ⟨o, d1, h1, h2, h3⟩ := readBytes_run (z := z) d c
    have hrefuse : ∀ {o : Option (List UInt8)}, M.attempt (readBytes z) d c = (.ok o, d1, c) →
        (o = none ∨ (∃ b, o = some b ∧ parse cd b = none) ∨ (∃ b v, o = some b ∧ parse cd b = some v ∧ cd.encode values = none)) →
        CompressedFaults.push z cd srtU values d c = (.ok values, d1, c) := by
      intro o h1 ho
      unfold CompressedFaults.push; rw [bind_ok h1]
      rcases ho with rfl | ⟨b, rfl, h⟩ | ⟨b, v, rfl, h, h'⟩
      · rfl
      · simp only [h]; rfl
      · simp only [h, h']; rfl
    rcases h3 with rfl | h3
    · simp only [Ends, plain]
      have hno : (c.readBytes z = none ∨ (∃ b, c.readBytes z = some b ∧ parse cd b = none) ∨
          (∃ b v, c.readBytes z = some b ∧ parse cd b = some v ∧ cd.encode values = none)) →
          c.push z cd srtU values = .ok (values, c) := by
        unfold Compressed.push
        rintro (h | ⟨b, h, h'⟩ | ⟨b, v, h, h', h''⟩)
        · simp only [h]
        · have hp : (if b = [] then some [] else cd.dec b) = parse cd b := rfl
          simp only [h, hp, h']
        · have hp : (if b = [] then some [] else cd.dec b) = parse cd b := rfl
          simp only [h, hp, h', h'']
      by_cases hcase : c.readBytes z = none ∨ (∃ b, c.readBytes z = some b ∧ parse cd b = none) ∨
          (∃ b v, c.readBytes z = some b ∧ parse cd b = some v ∧ cd.encode values = none)
      · rw [hno hcase]
        exact ⟨_, _, _, bind_ok (hrefuse h1 hcase), h2, Or.inl ⟨_, rfl, rfl⟩⟩
      · push Not at hcase
        obtain ⟨b, hr⟩ := Option.ne_none_iff_exists'.1 hcase.1
        obtain ⟨vec, hv⟩ := Option.ne_none_iff_exists'.1 (hcase.2.1 b hr)
        obtain ⟨eb, he⟩ := Option.ne_none_iff_exists'.1 (hcase.2.2 b vec hr hv)
        rw [plain_push hr hv he]
        rw [hr] at h1
        cases hs : Res.sub c.capacity b.length with
        | panic =>
          have hg : CompressedFaults.push z cd srtU values d c = (.panic, d1, c) := by
            unfold CompressedFaults.push; rw [bind_ok h1]; simp only [hv, he, get_bind, hs]; rfl
          exact ⟨_, _, _, bind_panic hg, h2, Or.inr (Or.inl ⟨rfl, rfl, rfl⟩)⟩
        | ok room =>
          obtain ⟨o, d2, c2, g1, g2, g3⟩ := after_write (z := z) (cd := cd)
            (split cd srtU c.capacity eb.length room vec values).1 (split cd srtU c.capacity eb.length room vec values).2
            d1 (hd.le h2) c
          have hg : CompressedFaults.push z cd srtU values d c = (o, d2, c2) := by
            unfold CompressedFaults.push; rw [bind_ok h1]; simp only [hv, he, get_bind, hs]
            exact (bind_ok rfl).trans g1
          rcases g3 with ⟨rfl, g3⟩ | ⟨rfl, rfl, g3⟩
          · exact ⟨_, _, _, bind_ok hg, g2.trans h2, Or.inl ⟨_, rfl, by simp [g3]⟩⟩
          · refine ⟨.panic, _, _, bind_panic hg, g2.trans h2, ?_⟩
            rcases g3 with g3 | g3
            · exact Or.inr (Or.inl ⟨rfl, rfl, by simp [g3]⟩)
            · exact Or.inr (Or.inr (Or.inr ⟨rfl, rfl, h2.4.subset g3⟩))
    · obtain ⟨rfl, h4⟩ := hdr h3
      have hg : CompressedFaults.push z cd srtU values d c = (.ok values, d1, c) := by
        unfold CompressedFaults.push; rw [bind_ok h1]; rfl
      exact ⟨_, _, _, bind_ok hg, h2, Or.inr (Or.inr (Or.inl ⟨rfl, rfl, Or.inl h4⟩))⟩

/-- A call on a state that holds `l`, without failures. -/
theorem plain_simple [LinearOrder K] {z : Lz4} {cd : VecCodec (K × V)} (hlaw : cd.Law) (srt srtU : Sorter (K × V))
    {c : Compressed} {l : List (K × V)} (h : Holds z cd c l) (r : Req K V) (hr : Simple r) :
    ∃ a c' l', plain z cd srt srtU c r = .ok (a, c') ∧ Holds z cd c' l' ∧ c'.capacity = c.capacity ∧
      (l' ++ handed (.ok a)).Perm (l ++ given r (.ok a)) := by
  cases r with
  | size => exact ⟨_, _, l, rfl, h, rfl, by simp [handed, given]⟩
  | contains k => exact ⟨_, _, l, rfl, h, rfl, by simp [handed, given]⟩
  | get k =>
    obtain ⟨o, h1, -⟩ := Compressed.get_spec hlaw h k id
    exact ⟨.val o, c, l, by simp [plain, h1], h, rfl, by simp [handed, given]⟩
  | take k =>
    obtain ⟨o, c', l', h1, h2, h3, h4⟩ := Compressed.take_spec hlaw h k
    refine ⟨.opt o, c', l', by simp [plain, h1], h2, h3, ?_⟩
    cases o with
    | none => simp [handed, given, h4.2]
    | some e => simp only [handed, given, List.append_nil]; perms [h4.2]
  | pop n =>
    obtain ⟨out, c', l', h1, h2, h3, h4, -⟩ := Compressed.pop_spec hlaw srt h n
    exact ⟨.many out, c', l', by simp [plain, h1], h2, h3, by simpa [handed, given] using h4⟩
  | push vs =>
    obtain ⟨out, c', l', h1, h2, h3, h4⟩ := Compressed.push_spec hlaw srtU h vs
    exact ⟨.many out, c', l', by simp [plain, h1], h2, h3, by simpa [handed, given] using h4⟩
  | flush =>
    obtain ⟨c', h1, h2, h3⟩ := Compressed.flush_spec hlaw h
    exact ⟨.many l, c', [], by simp [plain, h1], h2, h3, by simp [handed, given]⟩
  | takeMultiple ks => exact hr.elim
  | getMut k f => exact hr.elim

/-- A call on a state that holds `l`. -/
theorem call_simple [LinearOrder K] {z : Lz4} {cd : VecCodec (K × V)} (hlaw : cd.Law) (srt srtU : Sorter (K × V))
    {c : Compressed} {l : List (K × V)} (h : Holds z cd c l) (r : Req K V) (hr : Simple r) (d : Disk) (hd : Mild d) :
    ∃ o d' c' l', call z cd srt srtU r d c = (o, d', c') ∧ d'.Le d ∧ Holds z cd c' l' ∧ c'.capacity = c.capacity ∧
      (l' ++ handed o).Perm (l ++ given r o) ∧ (o = .panic → Fate.err ∈ d.resizes) := by
  obtain ⟨o, d', c', h1, h2, h3⟩ := call_ends z cd srt srtU r d hd c
  obtain ⟨a, c2, l', g1, g2, g3, g4⟩ := plain_simple hlaw srt srtU h r hr
  rcases h3 with ⟨a', rfl, e1⟩ | ⟨rfl, rfl, e1⟩ | ⟨rfl, rfl, e1⟩ | ⟨rfl, rfl, e1⟩
  · rw [g1] at e1
    simp only [Res.ok.injEq, Prod.mk.injEq] at e1
    obtain ⟨rfl, rfl⟩ := e1
    exact ⟨_, _, _, l', h1, h2, g2, g3, g4, by simp⟩
  · rw [g1] at e1; simp at e1
  · refine ⟨_, _, _, l, h1, h2, h, rfl, ?_, by simp⟩
    cases r <;> simp [blind, handed, given]
  · refine ⟨_, _, _, l, h1, h2, h, rfl, ?_, fun _ => e1⟩
    cases r <;> simp [handed, given]

/-- The history. -/
theorem run_simple [LinearOrder K] {z : Lz4} {cd : VecCodec (K × V)} (hlaw : cd.Law) (srt srtU : Sorter (K × V))
    (calls : List (Req K V)) : ∀ (c : Compressed) (l : List (K × V)) (d : Disk), Holds z cd c l → (∀ r ∈ calls, Simple r) →
    Mild d → ∃ os d' c' l', run z cd srt srtU calls d c = (os, d', c') ∧ d'.Le d ∧ Holds z cd c' l' ∧
      c'.capacity = c.capacity ∧ os.length = calls.length ∧
      (l' ++ os.flatMap handed).Perm (l ++ (calls.zip os).flatMap fun x => given x.1 x.2) ∧
      (Out.panic ∈ os → Fate.err ∈ d.resizes) := by
  induction calls with
  | nil =>
    intro c l d h _ _
    exact ⟨[], d, c, l, rfl, Disk.Le.refl d, h, rfl, rfl, by simp, by simp⟩
  | cons r calls ih =>
    intro c l d h hs hd
    obtain ⟨o, d1, c1, l1, h1, h2, h3, h4, h5, h6⟩ := call_simple hlaw srt srtU h r (hs r (by simp)) d hd
    obtain ⟨os, d2, c2, l2, g1, g2, g3, g4, g5, g6, g7⟩ := ih c1 l1 d1 h3 (fun r hr => hs r (by simp [hr])) (hd.le h2)
    refine ⟨o :: os, d2, c2, l2, by simp only [run, h1, g1], g2.trans h2, g3, g4.trans h4, by simp [g5], ?_, ?_⟩
    · simp only [List.flatMap_cons, List.zip_cons_cons]
      perms [g6, h5]
    · simp only [List.mem_cons]
      rintro (h | h)
      · exact h6 h.symm
      · exact h2.4.subset (g7 h)

theorem After.holds [LinearOrder K] {z : Lz4} {cd : VecCodec (K × V)} (hlaw : cd.Law) {srt srtU : Sorter (K × V)}
    {c : Compressed} (h : After z cd srt srtU c) : Holds z cd c (elems z cd c) := by
  obtain ⟨cap, calls, d, h1, h2, h3⟩ := h
  obtain ⟨os, d', c', l', g1, -, g3, -⟩ := run_simple hlaw srt srtU calls _ [] d (CompressedProps.new_holds cap) h1 h2
  rw [g1] at h3
  obtain rfl : c' = c := h3
  rw [g3.elems hlaw]; exact g3

/-- A call that cannot read the stream. -/
theorem call_blind [LinearOrder K] (z : Lz4) (cd : VecCodec (K × V)) (srt srtU : Sorter (K × V)) (r : Req K V) {d d' : Disk}
    {c : Compressed} (h : readBytes z d c = (.err, d', c)) : call z cd srt srtU r d c = (.ok (blind r), d', c) := by
  have h1 : M.attempt (readBytes z) d c = (.ok none, d', c) := Faults.attempt_err h
  have h2 : M.attempt (CompressedFaults.read z cd) d c = (.ok none, d', c) := by
    refine Faults.attempt_err ?_
    unfold CompressedFaults.read; exact bind_err h
  cases r with
  | size => exact bind_ok ((bind_ok h1).trans rfl)
  | contains k => exact bind_ok ((bind_ok h2).trans rfl)
  | take k => exact bind_ok ((bind_ok h2).trans rfl)
  | takeMultiple ks =>
    have : CompressedFaults.takeMultiple z cd ks d c = (.ok ([], ks), d', c) := by
      unfold CompressedFaults.takeMultiple; exact (bind_ok h2).trans rfl
    exact bind_ok this
  | pop n => exact bind_ok ((bind_ok h2).trans rfl)
  | push l => exact bind_ok ((bind_ok h1).trans rfl)
  | flush => exact bind_ok ((bind_ok h2).trans rfl)
  | get k => exact bind_ok ((bind_ok h2).trans rfl)
  | getMut k f => exact bind_ok ((bind_ok h2).trans rfl)

theorem readBytes_fails {z : Lz4} {d : Disk} (c : Compressed) (h : d.seeks.head? = some .err ∨ d.reads.head? = some .err ∨
    z.decomp c.stream.vec = none) : ∃ d', readBytes z d c = (.err, d', c) := by
  unfold readBytes
  rw [get_bind]
  unfold M.clone
  obtain ⟨sk, rd, wr, rs⟩ := d
  obtain ⟨d1, h1, ⟨h2, -⟩ | h2⟩ := Faults.seek_run (.start 0) ⟨sk, rd, wr, rs⟩ c.stream
  · exact ⟨d1, by rw [bind_err h2]⟩
  · rw [bind_ok h2, seek_start]
    have hrd : d1.reads = rd := by
      unfold Faults.seek at h2
      rcases sk with _ | ⟨_ | _ | n, t⟩ <;> simp only [Prod.mk.injEq, reduceCtorEq, false_and] at h2
      all_goals obtain ⟨-, rfl, -⟩ := h2
      all_goals rfl
    rcases h with h | h | h
    · simp only at h
      rcases sk with _ | ⟨_ | _ | n, t⟩ <;> simp at h
      simp [Faults.seek] at h2
    · simp only at h
      unfold decode
      rcases rd with _ | ⟨_ | _ | n, t⟩ <;> simp at h
      rw [hrd]
      exact ⟨_, rfl⟩
    · obtain ⟨o, d2, g1, -, ⟨b, -, g2⟩ | ⟨rfl, -⟩⟩ := decode_run (z := z) d1 { c.stream with pos := 0 } rfl
      · rw [h] at g2; simp at g2
      · exact ⟨d2, by rw [g1]⟩

/-- Writing fails after the contents have been discarded. -/
theorem write_fatal {z : Lz4} {cd : VecCodec (K × V)} {c c2 : Compressed} {l : List (K × V)} (hl : l ≠ [])
    (h : c.rewrite z cd l = .ok c2) {n : Nat} {d : Disk}
    (hd : (d = { seeks := [.err] } ∧ n = 0) ∨ (d = { writes := [.err] } ∧ n = 0) ∨ d = { writes := [.cut n] }) :
    ∃ b d' c', cd.encode l = some b ∧ M.expect (write z cd l) d c = (.panic, d', c') ∧ c'.stream.vec = (z.comp b).take n := by
  unfold Compressed.rewrite Compressed.write at h
  rw [if_neg hl] at h
  cases he : cd.encode l with
  | none => rw [he] at h; simp [Res.unwrap] at h
  | some b =>
    rw [he] at h
    simp only at h
    by_cases hb : b.length > c.capacity
    · rw [if_pos hb] at h; simp [Res.unwrap] at h
    · refine ⟨b, ?_⟩
      unfold M.expect CompressedFaults.write
      rw [if_neg hl, he]
      simp only [get_bind]
      rw [if_neg hb]
      have hr : onStream (Faults.resize 0) d c = (.ok (), d, { c with stream := ⟨[], 0⟩ }) := by
        rcases hd with ⟨rfl, -⟩ | ⟨rfl, -⟩ | rfl <;> simp [onStream, Faults.resize, Compressed.resize_zero]
      rw [bind_ok hr]
      rcases hd with ⟨rfl, rfl⟩ | ⟨rfl, rfl⟩ | rfl
      · exact ⟨_, _, trivial, rfl, by simp⟩
      · exact ⟨_, _, trivial, rfl, by simp; rfl⟩
      · have hs : onStream (Faults.seek (.start 0)) { writes := [.cut n] } { c with stream := ⟨[], 0⟩ } =
            (.ok 0, { writes := [.cut n] }, { c with stream := ⟨[], 0⟩ }) := rfl
        rw [bind_ok hs]
        have hw : onStream (encode (z.comp b)) { writes := [.cut n] } { c with stream := ⟨[], 0⟩ } =
            (.err, {}, { c with stream := ⟨(z.comp b).take n, ((z.comp b).take n).length⟩ }) := by
          unfold onStream encode
          simp only
          rw [bind_ok (put_empty _ _)]
          rfl
        rw [hw]
        exact ⟨_, _, trivial, rfl, rfl⟩

/-- Reading works. -/
theorem read_quiet {z : Lz4} {cd : VecCodec (K × V)} {c : Compressed} {d d1 : Disk} (h2 : d1.reads = [])
    (h3 : Faults.seek (.start 0) d c.stream = (.ok 0, d1, { c.stream with pos := 0 })) :
    M.attempt (readBytes z) d c = (.ok (c.readBytes z), d1, c) ∧
      M.attempt (CompressedFaults.read z cd) d c = (.ok (c.read z cd), d1, c) := by
  obtain ⟨sk, rd, wr, rs⟩ := d1
  obtain rfl : rd = [] := h2
  have hb : readBytes z d c = (match c.readBytes z with | none => .err | some b => .ok b, ⟨sk, [], wr, rs⟩, c) := by
    unfold readBytes
    rw [get_bind]
    unfold M.clone
    rw [bind_ok h3]
    unfold decode Compressed.readBytes
    simp only [List.drop_zero]
    cases z.decomp c.stream.vec <;> rfl
  unfold Compressed.read
  cases hr : c.readBytes z with
  | none =>
    rw [hr] at hb
    refine ⟨Faults.attempt_err hb, ?_⟩
    unfold CompressedFaults.read
    exact Faults.attempt_err (bind_err hb)
  | some b =>
    rw [hr] at hb
    refine ⟨Faults.attempt_ok hb, ?_⟩
    have hp : (if b = [] then some [] else cd.dec b) = parse cd b := rfl
    simp only [hp]
    unfold CompressedFaults.read M.attempt
    rw [bind_ok hb]
    cases parse cd b <;> rfl

/-- Reading, before. -/
theorem read_fatal {z : Lz4} {cd : VecCodec (K × V)} {c : Compressed} {n : Nat} {d : Disk} (hd : Fatal n d) :
    ∃ d1, ((d1 = { seeks := [.err] } ∧ n = 0) ∨ (d1 = { writes := [.err] } ∧ n = 0) ∨ d1 = { writes := [.cut n] }) ∧
      M.attempt (readBytes z) d c = (.ok (c.readBytes z), d1, c) ∧
      M.attempt (CompressedFaults.read z cd) d c = (.ok (c.read z cd), d1, c) := by
  have hq : ∃ d1 : Disk, ((d1 = { seeks := [.err] } ∧ n = 0) ∨ (d1 = { writes := [.err] } ∧ n = 0) ∨ d1 = { writes := [.cut n] }) ∧
      d1.reads = [] ∧ Faults.seek (.start 0) d c.stream = (.ok 0, d1, { c.stream with pos := 0 }) := by
    rcases hd with ⟨rfl, rfl⟩ | ⟨rfl, rfl⟩ | rfl
    · exact ⟨_, Or.inl ⟨rfl, rfl⟩, rfl, by simp [Faults.seek, seek_start]⟩
    · exact ⟨_, Or.inr (Or.inl ⟨rfl, rfl⟩), rfl, by simp [Faults.seek, seek_start]⟩
    · exact ⟨_, Or.inr (Or.inr rfl), rfl, by simp [Faults.seek, seek_start]⟩
  obtain ⟨d1, h1, h2, h3⟩ := hq
  exact ⟨d1, h1, read_quiet h2 h3⟩

/-- A failed resize. -/
theorem write_resize {z : Lz4} {cd : VecCodec (K × V)} {c c2 : Compressed} {l : List (K × V)}
    (h : c.rewrite z cd l = .ok c2) : M.expect (write z cd l) { resizes := [.err] } c = (.panic, {}, c) := by
  have hr : onStream (Faults.resize 0) { resizes := [.err] } c = (.err, {}, c) := rfl
  unfold M.expect CompressedFaults.write
  by_cases hl : l = []
  · rw [if_pos hl, hr]
  · unfold Compressed.rewrite Compressed.write at h
    rw [if_neg hl] at h ⊢
    cases he : cd.encode l with
    | none => rw [he] at h; simp [Res.unwrap] at h
    | some b =>
      rw [he] at h
      simp only at h
      by_cases hb : b.length > c.capacity
      · rw [if_pos hb] at h; simp [Res.unwrap] at h
      · simp only [get_bind]
        rw [if_neg hb, bind_err hr]

/-! ## Theorems -/

/-- **C118, full statement.**  Whatever operations of the stream fail: no call panics, the container does not exceed its
capacity, and everything given to it is inside or was handed back. -/
def C118_full : Prop :=
  ∀ (z : Lz4) (cd : VecCodec (Nat × Nat)), cd.Law → ∀ (srt srtU : Sorter (Nat × Nat)) (cap : Nat) (calls : List (Req Nat Nat))
    (d : Disk), (∀ r ∈ calls, Simple r) →
    let r := run z cd srt srtU calls d (Compressed.new cap)
    Out.panic ∉ r.1 ∧ r.2.2.size z ≤ cap ∧
      (elems z cd r.2.2 ++ r.1.flatMap handed).Perm ((calls.zip r.1).flatMap fun x => given x.1 x.2)

/-- **C118, partial.**  When reads and resizes may fail, and seeks and writes do not, over any history, with the panics caught by
the user: everything given to a call that returned is inside or was handed back, calls panic only if a resize failed, and the capacity is
respected. -/
theorem C118_partial [LinearOrder K] (z : Lz4) (cd : VecCodec (K × V)) (hlaw : cd.Law) (srt srtU : Sorter (K × V)) (cap : Nat)
    (calls : List (Req K V)) (hs : ∀ r ∈ calls, Simple r) (d : Disk) (hd : Fate.err ∉ d.seeks) (hw : ∀ f ∈ d.writes, f = .ok) :
    let r := run z cd srt srtU calls d (Compressed.new cap)
    (elems z cd r.2.2 ++ r.1.flatMap handed).Perm ((calls.zip r.1).flatMap fun x => given x.1 x.2) ∧
    (Out.panic ∈ r.1 → Fate.err ∈ d.resizes) ∧ r.2.2.size z ≤ cap := by
  obtain ⟨os, d', c', l', g1, -, g3, g4, -, g6, g7⟩ :=
    run_simple (z := z) hlaw srt srtU calls _ [] d (CompressedProps.new_holds cap) hs ⟨hd, hw⟩
  simp only [g1]
  refine ⟨by rw [g3.elems hlaw]; simpa using g6, g7, ?_⟩
  have := g3.bounded
  rw [g4] at this
  exact this

/-- **C118, each call.**  Reads and resizes may fail.  In every state a call, including `take_multiple` and `get_mut`, does exactly
what it does without failures, or leaves the container as it was; then it panics, only if a resize failed, or it answers as if the
container were empty and full, only if a read or a resize failed. -/
theorem C118_each [LinearOrder K] (z : Lz4) (cd : VecCodec (K × V)) (srt srtU : Sorter (K × V)) (c : Compressed) (r : Req K V)
    (d : Disk) (hd : Fate.err ∉ d.seeks) (hw : ∀ f ∈ d.writes, f = .ok) :
    ∃ o d' c', call z cd srt srtU r d c = (o, d', c') ∧
      ((∃ a, o = .ok a ∧ plain z cd srt srtU c r = .ok (a, c')) ∨ (o = .panic ∧ c' = c ∧ plain z cd srt srtU c r = .panic) ∨
       (c' = c ∧ o = .ok (blind r) ∧ (Fate.err ∈ d.reads ∨ Fate.err ∈ d.resizes)) ∨
       (c' = c ∧ o = .panic ∧ Fate.err ∈ d.resizes)) := by
  obtain ⟨o, d', c', h1, -, h3⟩ := call_ends z cd srt srtU r d ⟨hd, hw⟩ c
  refine ⟨o, d', c', h1, ?_⟩
  rcases h3 with h | h | ⟨a, b, e⟩ | ⟨a, b, e⟩
  · exact Or.inl h
  · exact Or.inr (Or.inl h)
  · exact Or.inr (Or.inr (Or.inl ⟨b, a, e⟩))
  · exact Or.inr (Or.inr (Or.inr ⟨b, a, e⟩))

/-- **C118, recovery.**  In every state, whatever failed before: when nothing fails any more a call ends as in the model without
failures. -/
theorem C118_recovers [LinearOrder K] (z : Lz4) (cd : VecCodec (K × V)) (srt srtU : Sorter (K × V)) (c : Compressed) (r : Req K V)
    (d : Disk) (hd : Fate.err ∉ d.seeks) (hr : Fate.err ∉ d.reads) (hs : Fate.err ∉ d.resizes) (hw : ∀ f ∈ d.writes, f = .ok) :
    (∀ a c', plain z cd srt srtU c r = .ok (a, c') → ∃ d', call z cd srt srtU r d c = (.ok a, d', c')) ∧
    (plain z cd srt srtU c r = .panic → ∃ d', call z cd srt srtU r d c = (.panic, d', c)) := by
  obtain ⟨o, d', c', h1, ⟨a, rfl, h⟩ | ⟨rfl, rfl, h⟩ | ⟨-, -, h | h⟩ | ⟨-, -, h⟩⟩ := C118_each z cd srt srtU c r d hd hw
  · refine ⟨fun a' c2 h' => ?_, fun h' => by rw [h] at h'; simp at h'⟩
    rw [h] at h'
    simp only [Res.ok.injEq, Prod.mk.injEq] at h'
    obtain ⟨rfl, rfl⟩ := h'
    exact ⟨d', h1⟩
  · exact ⟨fun a' c2 h' => by rw [h] at h'; simp at h', fun _ => ⟨d', h1⟩⟩
  · exact absurd h hr
  · exact absurd h hs
  · exact absurd h hs

/-- **C118, a failed read.**  In every state, if the next seek or the next read fails, every call returns at once and leaves the
container as it was: `contains` says no, `size` is 0, `push` hands everything back, the others return nothing. -/
theorem C118_blind [LinearOrder K] (z : Lz4) (cd : VecCodec (K × V)) (srt srtU : Sorter (K × V)) (c : Compressed) (r : Req K V)
    (d : Disk) (hd : d.seeks.head? = some .err ∨ d.reads.head? = some .err) :
    ∃ d', call z cd srt srtU r d c = (.ok (blind r), d', c) := by
  obtain ⟨d', h⟩ := readBytes_fails (z := z) (d := d) c (hd.elim Or.inl (fun h => Or.inr (Or.inl h)))
  exact ⟨d', call_blind z cd srt srtU r h⟩

/-- **C118, a failed write wipes the container.**  With two or more elements inside, `take` of one of them: if the write (or
the seek before it) fails, `take` panics and nothing of the contents is left: the stream holds the beginning of the new frame. -/
theorem C118_take_wipes [LinearOrder K] (z : Lz4) (cd : VecCodec (K × V)) (hlaw : cd.Law) (srt srtU : Sorter (K × V))
    (c : Compressed) (h : After z cd srt srtU c) (k : K) (hk : HasKey (elems z cd c) k) (h2 : 2 ≤ (elems z cd c).length)
    (n : Nat) (d : Disk) (hd : Fatal n d) :
    ∃ d' c' l' b, call z cd srt srtU (.take k) d c = (.panic, d', c') ∧ cd.encode l' = some b ∧ l'.length + 1 = (elems z cd c).length ∧
      c'.stream.vec = (z.comp b).take n ∧ (n = 0 → elems z cd c' = []) := by
  have hh := h.holds hlaw
  generalize elems z cd c = l at *
  obtain ⟨d1, e1, -, e3⟩ := read_fatal (z := z) (cd := cd) (c := c) hd
  rw [hh.read hlaw] at e3
  cases hf : findKey l k with
  | none => exact absurd hk (findKey_none hf)
  | some i =>
    obtain ⟨e, he, -⟩ := findKey_some hf
    have hp := swapRemove_perm he
    have hlen := hp.length_eq
    simp only [List.length_cons] at hlen
    obtain ⟨c2, g1, -⟩ := hh.rewrite (l' := swapRemove l i) (out := [e]) (by perms [hp])
    obtain ⟨b, d', c', f1, f2, f3⟩ := write_fatal (by intro h0; rw [h0] at hlen; simp at hlen; omega) g1 e1
    have hg : CompressedFaults.take z cd k d c = (.panic, d', c') := by
      unfold CompressedFaults.take; rw [bind_ok e3]; simp only [hf, he]; exact (bind_ok rfl).trans (bind_panic f2)
    refine ⟨d', c', _, b, bind_panic hg, f1, hlen, f3, ?_⟩
    rintro rfl
    rw [List.take_zero] at f3
    simp [elems, Compressed.read, Compressed.readBytes, f3, z.empty]

/-- **C118, … and so does `push`.**  With elements that fit in the empty container: both the contents and the elements given are lost. -/
theorem C118_push_wipes [LinearOrder K] (z : Lz4) (cd : VecCodec (K × V)) (hlaw : cd.Law) (srt srtU : Sorter (K × V))
    (c : Compressed) (h : After z cd srt srtU c) (l : List (K × V)) (hl : l ≠ []) (b : List UInt8) (hb : cd.encode l = some b)
    (hfit : b.length ≤ c.capacity) (n : Nat) (d : Disk) (hd : Fatal n d) :
    ∃ d' c' l' b', call z cd srt srtU (.push l) d c = (.panic, d', c') ∧ cd.encode l' = some b' ∧
      c'.stream.vec = (z.comp b').take n ∧ (n = 0 → elems z cd c' = []) := by
  have hh := h.holds hlaw
  obtain ⟨d1, e1, e2, -⟩ := read_fatal (z := z) (cd := cd) (c := c) hd
  obtain ⟨bs, r1, r2, -, r4⟩ := hh.readBytes
  rw [hh.read hlaw] at r2
  have hv : parse cd bs = some (elems z cd c) := r2
  have hs : Res.sub c.capacity bs.length = .ok (c.capacity - bs.length) := by simp [Res.sub, r4]
  obtain ⟨out, c2, l2, p1, -⟩ := Compressed.push_spec hlaw srtU hh l
  rw [plain_push r1 hv hb, hs, Res.ok_bind] at p1
  cases hw : c.rewrite z cd (split cd srtU c.capacity b.length (c.capacity - bs.length) (elems z cd c) l).1 with
  | panic => rw [hw] at p1; simp at p1
  | ok c3 =>
    have hne : (split cd srtU c.capacity b.length (c.capacity - bs.length) (elems z cd c) l).1 ≠ [] := by
      unfold split
      rw [if_neg (by omega)]
      split_ifs <;> simp [hl]
    obtain ⟨b', d', c', f1, f2, f3⟩ := write_fatal hne hw e1
    rw [r1] at e2
    have hg : CompressedFaults.push z cd srtU l d c = (.panic, d', c') := by
      unfold CompressedFaults.push; rw [bind_ok e2]; simp only [hv, hb, get_bind, hs]
      exact (bind_ok rfl).trans (bind_panic f2)
    refine ⟨d', c', _, b', bind_panic hg, f1, f3, ?_⟩
    rintro rfl
    rw [List.take_zero] at f3
    simp [elems, Compressed.read, Compressed.readBytes, f3, z.empty]

/-- **C118, a torn frame is for ever.**  Once the stream holds a frame that the decoder rejects, every call of every history
answers as if the container were empty and full, even `flush`, whether or not the stream works again. -/
theorem C118_dead [LinearOrder K] (z : Lz4) (cd : VecCodec (K × V)) (srt srtU : Sorter (K × V)) (c : Compressed)
    (h : z.decomp c.stream.vec = none) (calls : List (Req K V)) (d : Disk) :
    ∃ d', run z cd srt srtU calls d c = (calls.map fun r => .ok (blind r), d', c) := by
  induction calls generalizing d with
  | nil => exact ⟨d, rfl⟩
  | cons r calls ih =>
    obtain ⟨d1, h1⟩ := readBytes_fails (z := z) (d := d) c (Or.inr (Or.inr h))
    obtain ⟨d2, h2⟩ := ih d1
    exact ⟨d2, by simp only [run, call_blind z cd srt srtU r h1, h2, List.map_cons]⟩

/-- **C118, a failed resize** (of a stream that can be read): `pop` and `flush` of everything return nothing; `take`, and a `push` of
elements that fit in the empty container, panic; the container is left as it was, what was given to `push` is lost. -/
theorem C118_resize [LinearOrder K] (z : Lz4) (cd : VecCodec (K × V)) (hlaw : cd.Law) (srt srtU : Sorter (K × V))
    (c : Compressed) (h : After z cd srt srtU c) :
    call z cd srt srtU .flush { resizes := [.err] } c = (.ok (.many []), {}, c) ∧
    (∀ k, HasKey (elems z cd c) k → call z cd srt srtU (.take k) { resizes := [.err] } c = (.panic, {}, c)) ∧
    (∀ l b, l ≠ [] → cd.encode l = some b → b.length ≤ c.capacity →
      call z cd srt srtU (.push l) { resizes := [.err] } c = (.panic, {}, c)) := by
  have hh := h.holds hlaw
  obtain ⟨e2, e3⟩ := read_quiet (z := z) (cd := cd) (c := c) (d := { resizes := [.err] }) (d1 := { resizes := [.err] }) rfl
    (by simp [Faults.seek, seek_start])
  rw [hh.read hlaw] at e3
  refine ⟨?_, fun k hk => ?_, fun l b hl hb hfit => ?_⟩
  · have hg : CompressedFaults.flush z cd { resizes := [.err] } c = (.ok [], {}, c) := by
      unfold CompressedFaults.flush; rw [bind_ok e3]; rfl
    exact bind_ok hg
  · cases hf : findKey (elems z cd c) k with
    | none => exact absurd hk (findKey_none hf)
    | some i =>
      obtain ⟨e, he, -⟩ := findKey_some hf
      obtain ⟨c2, g1, -⟩ := hh.rewrite (l' := swapRemove (elems z cd c) i) (out := [e]) (by perms [swapRemove_perm he])
      have hg : CompressedFaults.take z cd k { resizes := [.err] } c = (.panic, {}, c) := by
        unfold CompressedFaults.take; rw [bind_ok e3]; simp only [hf, he]
        exact (bind_ok rfl).trans (bind_panic (write_resize g1))
      exact bind_panic hg
  · obtain ⟨bs, r1, r2, -, r4⟩ := hh.readBytes
    rw [hh.read hlaw] at r2
    have hv : parse cd bs = some (elems z cd c) := r2
    have hs : Res.sub c.capacity bs.length = .ok (c.capacity - bs.length) := by simp [Res.sub, r4]
    obtain ⟨out, c2, l2, p1, -⟩ := Compressed.push_spec hlaw srtU hh l
    rw [plain_push r1 hv hb, hs, Res.ok_bind] at p1
    cases hw : c.rewrite z cd (split cd srtU c.capacity b.length (c.capacity - bs.length) (elems z cd c) l).1 with
    | panic => rw [hw] at p1; simp at p1
    | ok c3 =>
      rw [r1] at e2
      have hg : CompressedFaults.push z cd srtU l { resizes := [.err] } c = (.panic, {}, c) := by
        unfold CompressedFaults.push; rw [bind_ok e2]; simp only [hv, hb, get_bind, hs]
        exact (bind_ok rfl).trans (bind_panic (write_resize hw))
      exact bind_panic hg

/-! ## Examples -/

/-- A compression that detects truncated frames: the length in unary, then the bytes. -/
def framed : Lz4 where
  comp b := List.replicate b.length 1 ++ 0 :: b
  decomp v := if v = [] then some [] else
    let n := (v.takeWhile (· = 1)).length
    if v[n]? = some 0 ∧ (v.drop (n + 1)).length = n then some (v.drop (n + 1)) else none
  law b := by
    have h1 : (List.replicate b.length (1 : UInt8) ++ 0 :: b).takeWhile (· = 1) = List.replicate b.length 1 := by
      rw [List.takeWhile_append_of_pos (by simp)]
      simp
    rw [if_neg (by simp)]
    simp only [h1, List.length_replicate]
    have h2 : (List.replicate b.length (1 : UInt8) ++ 0 :: b).drop (b.length + 1) = b := by
      rw [List.drop_append]
      simp
    rw [h2]
    simp
  empty := rfl

open CompressedProps (smallVec smallVec_law byValue)

/-- Two elements. -/
def two : List (Req Nat Nat) := [.push [(1, 0), (2, 0)]]

/-- A torn write: the panic of `take` is caught; then nothing is inside, and nothing is accepted any more. -/
theorem C118_torn :
    (run framed smallVec byValue byValue (two ++ [.take 1, .contains 2, .push [(3, 0)], .flush, .size]) { writes := [.ok, .cut 3] }
      (Compressed.new 100)).1 =
      [.ok (.many []), .panic, .ok (.bool false), .ok (.many [(3, 0)]), .ok (.many []), .ok (.nat 0)] := by
  decide +kernel

/-- **C118 is false in full.** -/
theorem C118_false : ¬ C118_full ∧
    (∃ (calls : List (Req Nat Nat)) (d : Disk), let r := run framed smallVec byValue byValue calls d (Compressed.new 100)
      (∀ r ∈ calls, Simple r) ∧ Out.panic ∈ r.1) ∧
    (∃ (calls : List (Req Nat Nat)) (d : Disk), let r := run framed smallVec byValue byValue calls d (Compressed.new 100)
      (∀ r ∈ calls, Simple r) ∧
      ¬ (elems framed smallVec r.2.2 ++ r.1.flatMap handed).Perm ((calls.zip r.1).flatMap fun x => given x.1 x.2)) := by
  have h1 : Out.panic ∈ (run framed smallVec byValue byValue (two ++ [.take 1]) { writes := [.ok, .err] } (Compressed.new 100)).1 := by
    decide +kernel
  have hs : ∀ r ∈ two ++ [Req.take 1], Simple r := by simp [two, Simple]
  refine ⟨fun h => (h framed smallVec smallVec_law byValue byValue 100 _ _ hs).1 h1, ⟨_, _, hs, h1⟩,
    ⟨two ++ [.take 1], { writes := [.ok, .err] }, hs, by decide +kernel⟩⟩

/-! ## The hypotheses are met -/

/-- A history in which reads and resizes fail. -/
example : (run framed smallVec byValue byValue
      (two ++ [.contains 1, .take 1, .push [(3, 0)], .flush, .take 2, .pop 5]) { reads := [.ok, .err], resizes := [.ok, .err, .err, .err] }
      (Compressed.new 100)).1 =
    [.ok (.many []), .ok (.bool false), .panic, .panic, .ok (.many []), .ok (.opt (some (2, 0))), .ok (.many [(1, 0)])] := by
  decide +kernel

/-- The state after `two`: two elements are inside, and there is room. -/
example : ∃ c, After framed smallVec byValue byValue c ∧ HasKey (elems framed smallVec c) 1 ∧ 2 ≤ (elems framed smallVec c).length ∧
    (∃ b, smallVec.encode [(3, 0)] = some b ∧ b.length ≤ c.capacity) := by
  refine ⟨_, ⟨100, two, {}, by simp [two, Simple], ⟨by simp, by simp⟩, rfl⟩, ⟨0, by decide +kernel⟩, by decide +kernel, _, rfl,
    by decide +kernel⟩

/-- A frame that the decoder rejects. -/
example : framed.decomp ((framed.comp [5, 6]).take 3) = none := by decide +kernel

end Byoc.CompressedFaultProps
