import Verif.Proofs.StreamMore
import Verif.Props.UtilsProps

/-!
# Properties of streams: C24, C25, C26, C27, C50
-/

namespace Byoc
namespace StreamProps

/-! ## C50: a `VecStream` is a byte file -/

/-- **C50, writing.**  With the cursor inside the file: all the bytes are written, the byte at each
position is the one written there or the old one, the length is the greatest of the old length and
the end of the write, and reading back from where the write began gives the bytes written. -/
theorem C50_write (s : VecStream) (buf : List UInt8) (h : s.pos ≤ s.vec.length) :
    ∃ s', s.write buf = .ok (buf.length, s') ∧ s'.pos = s.pos + buf.length ∧
      s'.vec.length = max s.vec.length (s.pos + buf.length) ∧
      (∀ i, s'.vec[i]? =
        if s.pos ≤ i ∧ i < s.pos + buf.length then buf[i - s.pos]? else s.vec[i]?) ∧
      ((s'.seek (.start s.pos)).2.read buf.length).1 = buf := by
  refine ⟨_, VecStream.write_spec s buf h, rfl, ?_, ?_, ?_⟩
  · simp only [VecStream.overwrite, List.length_append, List.length_take, List.length_drop]
    omega
  · intro i
    simp only [VecStream.overwrite, List.append_assoc]
    by_cases h1 : i < s.pos
    · rw [List.getElem?_append_left (by simp; omega), List.getElem?_take_of_lt h1, if_neg (by omega)]
    · rw [List.getElem?_append_right (by simp; omega)]
      simp only [List.length_take, Nat.min_eq_left h]
      by_cases h2 : i < s.pos + buf.length
      · rw [List.getElem?_append_left (by omega), if_pos ⟨by omega, h2⟩]
      · rw [List.getElem?_append_right (by omega), if_neg (by omega), List.getElem?_drop]
        congr 1
        omega
  · rw [VecStream.seek_start]
    have hlen : s.pos ≤ (VecStream.overwrite s.vec s.pos buf).length := by
      simp only [VecStream.overwrite, List.length_append, List.length_take, List.length_drop]
      omega
    obtain ⟨p, r1, -⟩ := VecStream.read_spec
      ⟨VecStream.overwrite s.vec s.pos buf, s.pos⟩ buf.length hlen
    simp only [Nat.min_eq_left hlen]
    rw [r1]
    simp only [VecStream.overwrite, List.append_assoc]
    rw [List.drop_append_of_le_length (by simp [h])]
    have : (s.vec.take s.pos).drop s.pos = [] := List.drop_of_length_le (by simp)
    rw [this, List.nil_append, List.take_left]

/-- **C50, reading**: the bytes from the cursor, as many as asked or as remain; the file is not
changed. -/
theorem C50_read (s : VecStream) (n : Nat) (h : s.pos ≤ s.vec.length) :
    (s.read n).1 = (s.vec.drop s.pos).take n ∧ (s.read n).2.vec = s.vec ∧
      (s.read n).2.pos = s.pos + (s.read n).1.length := by
  obtain ⟨p, r1, -, r3, -⟩ := VecStream.read_spec s n h
  rw [r1]
  refine ⟨rfl, rfl, ?_⟩
  simp only [r3, List.length_take, List.length_drop]

/-- **C50, seeking**: to the position asked, cut to the file; the file is not changed. -/
theorem C50_seek (s : VecStream) (w : SeekFrom) :
    (s.seek w).2.vec = s.vec ∧ (s.seek w).1 = (s.seek w).2.pos ∧
      ((s.seek w).2.pos : Int) = max 0 (min (s.vec.length : Int) (match w with
        | .start n => (n : Int)
        | .end n => s.vec.length + n
        | .current n => s.pos + n)) := by
  refine ⟨rfl, rfl, ?_⟩
  unfold VecStream.seek
  cases w <;> simp only <;> (split; omega; split <;> omega)

/-- **C50, resizing**: the length is the one asked, kept bytes are unchanged, new bytes are zero. -/
theorem C50_resize (s : VecStream) (n : Nat) :
    (s.resize n).vec.length = n ∧ (s.resize n).pos = min s.pos n ∧
      ∀ i < n, (s.resize n).vec[i]? = if i < s.vec.length then s.vec[i]? else some 0 := by
  unfold VecStream.resize VecStream.resizeVec
  refine ⟨?_, by simp only; split <;> omega, ?_⟩
  · simp only
    split
    · simpa using by assumption
    · simp; omega
  · intro i hi
    simp only
    split
    · rw [List.getElem?_take_of_lt hi, if_pos (by omega)]
    · split
      · rw [List.getElem?_append_left (by assumption)]
      · rw [List.getElem?_append_right (by omega), List.getElem?_replicate, if_pos (by omega)]

/-- Operations on a handle. -/
inductive FileOp where
  | read (n : Nat)
  | write (buf : List UInt8)
  | seek (w : SeekFrom)
  | resize (n : Nat)

def FileOp.run (s : VecStream) : FileOp → Res VecStream
  | .read n => pure (s.read n).2
  | .write b => do let (_, s) ← s.write b; pure s
  | .seek w => pure (s.seek w).2
  | .resize n => pure (s.resize n)

/-- **C50, histories**: from a new file, whatever the operations, none panics and the cursor stays in
the file, so that the theorems above apply to every operation. -/
theorem C50_history (ops : List FileOp) :
    ∃ s, ops.foldlM FileOp.run VecStream.new = .ok s ∧ s.pos ≤ s.vec.length := by
  have key : ∀ (ops : List FileOp) (s : VecStream), s.pos ≤ s.vec.length →
      ∃ s', ops.foldlM FileOp.run s = .ok s' ∧ s'.pos ≤ s'.vec.length := by
    intro ops
    induction ops with
    | nil => intro s h; exact ⟨s, rfl, h⟩
    | cons op ops ih =>
      intro s h
      have : ∃ s', op.run s = .ok s' ∧ s'.pos ≤ s'.vec.length := by
        cases op with
        | read n =>
          refine ⟨_, rfl, ?_⟩
          obtain ⟨h1, h2, h3⟩ := C50_read s n h
          rw [h2, h3, h1, List.length_take, List.length_drop]; omega
        | write b =>
          obtain ⟨s', h1, h2, h3, -⟩ := C50_write s b h
          exact ⟨s', by simp [FileOp.run, h1], by rw [h2, h3]; omega⟩
        | seek w =>
          refine ⟨_, rfl, ?_⟩
          obtain ⟨h1, h2, h3⟩ := C50_seek s w
          rw [h1]
          omega
        | resize n =>
          refine ⟨_, rfl, ?_⟩
          obtain ⟨h1, h2, -⟩ := C50_resize s n
          rw [h1, h2]; omega
      obtain ⟨s', h1, h2⟩ := this
      obtain ⟨s'', h3, h4⟩ := ih s' h2
      exact ⟨s'', by rw [List.foldlM_cons, h1]; exact h3, h4⟩
  exact key ops _ (by simp [VecStream.new])

/-- A handle left past the end by another handle that shortened the file: writing panics. -/
theorem C50_stale_handle_panics (s : VecStream) (buf : List UInt8) (h : s.vec.length < s.pos) :
    s.write buf = .panic := by
  simp [VecStream.write, Res.sub, Nat.not_le.2 h]

example : ∃ s, [FileOp.write [1, 2, 3], .seek (.start 1), .write [7], .seek (.end (-1)),
    .write [8, 9]].foldlM FileOp.run VecStream.new = .ok s ∧ s.vec = [1, 7, 8, 9] := ⟨_, rfl, rfl⟩

/-! ## C24: an `IOVec` is a vector -/

/-- Operations on a vector; `set` is the modification of an element through `iter_mut`. -/
inductive VecOp (O : Type) where
  | len
  | get (n : Nat)
  | iter
  | set (n : Nat) (o : O)
  | append (l : List O)
  | swapRemove (n : Nat)

/-- What the caller sees. -/
inductive VecObs (O : Type) where
  | nat (n : Nat)
  | opt (o : Option O)
  | list (l : List O)
  | unit
  deriving DecidableEq

/-- The operations on a vector of values. -/
def VecOp.spec {O : Type} (l : List O) : VecOp O → VecObs O × List O
  | .len => (.nat l.length, l)
  | .get n => (.opt l[n]?, l)
  | .iter => (.list l, l)
  | .set n o => (.unit, l.set n o)
  | .append new => (.unit, l ++ new)
  | .swapRemove n =>
    match l[n]? with
    | none => (.opt none, l)
    | some o => (.opt (some o),
        if n + 1 = l.length then l.take n else (l.take (l.length - 1)).set n (l.getLastD o))

/-- The operations on an `IOVec`; an error of `append` is a panic here. -/
def VecOp.run {O : Type} (cd : Codec O) (v : IOVec) : VecOp O → Res (VecObs O × IOVec)
  | .len => pure (.nat v.len, v)
  | .get n => do let o ← v.get cd n; pure (.opt o, v)
  | .iter => do let l ← v.iter cd; pure (.list l, v)
  | .set n o => do let v ← v.writeBack cd n o; pure (.unit, v)
  | .append l => do
    let (ok, v) ← v.append cd l
    if ok then pure (.unit, v) else .panic
  | .swapRemove n => do let (o, v) ← v.swapRemove cd n; pure (.opt o, v)

/-- The value can be serialised in `c` bytes. -/
def Fits {O : Type} (cd : Codec O) (c : Nat) (o : O) : Prop :=
  ∃ b, cd.enc o = some b ∧ b.length ≤ c

/-- Values given fit in the chunks, and elements modified exist. -/
def VecOp.Ok {O : Type} (cd : Codec O) (c : Nat) (l : List O) : VecOp O → Prop
  | .set n o => n < l.length ∧ Fits cd c o
  | .append new => ∀ o ∈ new, Fits cd c o
  | _ => True

/-- All the operations of a history are `P` in the state of the vector where they are called. -/
def Along {O : Type} (P : List O → VecOp O → Prop) : List O → List (VecOp O) → Prop
  | _, [] => True
  | l, op :: ops => P l op ∧ Along P (op.spec l).2 ops

def specs {O : Type} : List O → List (VecOp O) → List (VecObs O) × List O
  | l, [] => ([], l)
  | l, op :: ops =>
    let (r, l) := op.spec l
    let (rs, l) := specs l ops
    (r :: rs, l)

def runs {O : Type} (cd : Codec O) : IOVec → List (VecOp O) → Res (List (VecObs O) × IOVec)
  | v, [] => .ok ([], v)
  | v, op :: ops => do
    let (r, v) ← op.run cd v
    let (rs, v) ← runs cd v ops
    pure (r :: rs, v)

/-- **C24 in full**: histories on a new `IOVec`, for any chunk size, show the caller what the same
history on a vector would show; the byte length is the number of elements times the chunk size. -/
def C24_full : Prop := ∀ (O : Type) (cd : Codec O) (c : Nat), 0 < c → ∀ ops : List (VecOp O),
  Along (VecOp.Ok cd c) [] ops → ∃ v, runs cd ⟨VecStream.new, c⟩ ops = .ok ((specs [] ops).1, v) ∧
    v.size = (specs [] ops).2.length * c

/-- The operations for which it holds: `append` of one value at a time, `swap_remove` of an element
that exists or on an empty vector. -/
def VecOp.Plain {O : Type} (l : List O) : VecOp O → Prop
  | .append new => new.length ≤ 1
  | .swapRemove n => n < l.length ∨ l = []
  | _ => True

theorem swapRemove_eq {O : Type} (l : List O) (n : Nat) (o : O) (h : l[n]? = some o) :
    Byoc.swapRemove l n =
      if n + 1 = l.length then l.take n else (l.take (l.length - 1)).set n (l.getLastD o) := by
  have hlt := (List.getElem?_eq_some_iff.1 h).1
  cases hl : l.getLast? with
  | none => rw [List.getLast?_eq_none_iff] at hl; subst hl; simp at hlt
  | some x =>
    have : l.getLastD o = x := by rw [List.getLastD_eq_getLast?, hl]; rfl
    rw [this]
    simp only [Byoc.swapRemove, hl]
    split
    · rename_i he
      rw [List.set_eq_of_length_le (by simp; omega), List.dropLast_eq_take]
      congr 1; omega
    · rw [List.dropLast_eq_take]

theorem run_plain {O : Type} (cd : Codec O) (v : IOVec) (l : List O) (m : Nat)
    (h : IOVec.Repr cd v l m) (hg : IOVec.GoodChunk v.chunk) (op : VecOp O)
    (hok : op.Ok cd v.chunk l) (hp : op.Plain l) :
    ∃ v' m', op.run cd v = .ok ((op.spec l).1, v') ∧ v'.chunk = v.chunk ∧
      IOVec.Repr cd v' (op.spec l).2 m' := by
  cases op with
  | len => exact ⟨v, m, by simp [VecOp.run, VecOp.spec, h.len], rfl, h⟩
  | get n => exact ⟨v, m, by simp [VecOp.run, VecOp.spec, h.get n], rfl, h⟩
  | iter => exact ⟨v, m, by simp [VecOp.run, VecOp.spec, h.iter hg], rfl, h⟩
  | set n o =>
    obtain ⟨v', h1, h2, h3⟩ := h.writeBack n o hok.1 hok.2
    exact ⟨v', m, by simp [VecOp.run, VecOp.spec, h1], h2, h3⟩
  | append new =>
    obtain ⟨v', h1, h2, h3⟩ := h.append new hok
    have : new.reverse = new := by
      match new, hp with
      | [], _ => rfl
      | [_], _ => rfl
    rw [this] at h3
    exact ⟨v', _, by simp [VecOp.run, VecOp.spec, h1], h2, h3⟩
  | swapRemove n =>
    cases hn : l[n]? with
    | none =>
      have hl : l = [] := by
        rcases hp with hp | hp
        · simp at hn; omega
        · exact hp
      subst hl
      obtain ⟨v', m', h1, h2, h3⟩ := h.swapRemove_nil n
      exact ⟨v', m', by simp [VecOp.run, VecOp.spec, h1], h2, h3⟩
    | some o =>
      obtain ⟨v', m', h1, h2, h3⟩ := h.swapRemove n o hn
      rw [swapRemove_eq l n o hn] at h3
      exact ⟨v', m', by simp [VecOp.run, VecOp.spec, h1, hn], h2, by simpa [VecOp.spec, hn] using h3⟩

/-- **C24, what holds.**  For chunk sizes dividing 8192 or at least 8192 (every power of two, so all
those used by the containers), histories of single appends, reads, modifications and removals of
existing elements show what the same history on a vector shows. -/
theorem C24_partial {O : Type} (cd : Codec O) (c : Nat) (hc : 0 < c)
    (hg : c ∣ 8192 ∨ 8192 ≤ c) (ops : List (VecOp O))
    (hok : Along (VecOp.Ok cd c) [] ops) (hp : Along VecOp.Plain [] ops) :
    ∃ v, runs cd ⟨VecStream.new, c⟩ ops = .ok ((specs [] ops).1, v) ∧
      v.size = (specs [] ops).2.length * c := by
  have key : ∀ (ops : List (VecOp O)) (v : IOVec) (l : List O) (m : Nat), v.chunk = c →
      IOVec.Repr cd v l m → Along (VecOp.Ok cd c) l ops → Along VecOp.Plain l ops →
      ∃ v', runs cd v ops = .ok ((specs l ops).1, v') ∧ v'.size = (specs l ops).2.length * c := by
    intro ops
    induction ops with
    | nil =>
      intro v l m hv h _ _
      exact ⟨v, rfl, by rw [h.size, hv]; rfl⟩
    | cons op ops ih =>
      intro v l m hv h h1 h2
      obtain ⟨v', m', r1, r2, r3⟩ := run_plain cd v l m h (by rw [hv]; exact hg) op
        (by rw [hv]; exact h1.1) h2.1
      obtain ⟨v'', q1, q2⟩ := ih v' _ m' (r2.trans hv) r3 h1.2 h2.2
      refine ⟨v'', ?_, q2⟩
      simp only [runs, r1, Res.ok_bind, q1, Res.pure_eq, specs]
  exact key ops _ _ 0 rfl (IOVec.Repr.new hc) hok hp

/-- **C24, appending**: the values are appended in reverse order. -/
theorem C24_append_reversed {O : Type} (cd : Codec O) (c : Nat) (hc : 0 < c)
    (hg : c ∣ 8192 ∨ 8192 ≤ c) (new : List O) (hfit : ∀ o ∈ new, Fits cd c o) :
    ∃ v, runs cd ⟨VecStream.new, c⟩ [.append new, .iter] = .ok ([.unit, .list new.reverse], v) := by
  obtain ⟨v, h1, h2, h3⟩ := (IOVec.Repr.new (cd := cd) hc).append new hfit
  refine ⟨v, ?_⟩
  have := h3.iter (by rw [h2]; exact hg)
  simp [runs, VecOp.run, h1, this]

/-- A codec on pairs of numbers below 256: both numbers, then as many bytes as the second says. -/
def small : Codec (Nat × Nat) where
  enc e := if e.1 < 256 ∧ e.2 < 256 then
    some (UInt8.ofNat e.1 :: UInt8.ofNat e.2 :: List.replicate e.2 7) else none
  dec
    | a :: b :: _ => some (a.toNat, b.toNat)
    | _ => none
  law o b pad h := by
    split at h
    · rename_i hb
      simp only [Option.some.injEq] at h
      subst h
      simp only [List.cons_append, UInt8.toNat_ofNat', Option.some.injEq]
      ext <;> simp <;> omega
    · simp at h

/-- **C24 is false in full**: `append` of two values. -/
theorem C24_false : ¬ C24_full := by
  intro h
  have hfit : ∀ o ∈ [(1, 0), (2, 0)], Fits small 2 o := by
    intro o ho
    rcases (by simpa using ho) with rfl | rfl
    · exact ⟨[1, 0], rfl, by decide⟩
    · exact ⟨[2, 0], rfl, by decide⟩
  obtain ⟨v, h1, -⟩ := h _ small 2 (by decide) [.append [(1, 0), (2, 0)], .iter] ⟨hfit, trivial, trivial⟩
  obtain ⟨v', h2⟩ := C24_append_reversed small 2 (by decide) (Or.inl (by decide)) _ hfit
  rw [h2] at h1
  simp [specs, VecOp.spec] at h1

/-- **C24, iteration**: for every other chunk size, iterating a vector of more than 8192 bytes stops
after the first 8192 (`BufReader` does not read across the end of its buffer). -/
theorem C24_iteration_truncated {O : Type} (cd : Codec O) (c : Nat) (hc : 0 < c)
    (hg : ¬ (c ∣ 8192 ∨ 8192 ≤ c)) (l : List O) (hfit : ∀ o ∈ l, Fits cd c o)
    (hlong : 8192 < l.length * c) :
    ∃ v, runs cd ⟨VecStream.new, c⟩ [.append l.reverse, .len, .iter] =
      .ok ([.unit, .nat l.length, .list (l.take (8192 / c))], v) ∧ 8192 / c < l.length := by
  obtain ⟨v, h1, h2, h3⟩ := (IOVec.Repr.new (cd := cd) hc).append l.reverse
    (by simpa [Fits] using hfit)
  simp only [List.reverse_reverse, List.nil_append] at h3
  simp only at h2
  refine ⟨v, ?_, by rw [Nat.div_lt_iff_lt_mul hc]; omega⟩
  have := h3.iter_short (by rw [h2]; exact hg) (by rw [h2]; exact hlong)
  rw [h2] at this
  simp [runs, VecOp.run, h1, this, h3.len, bufCap]

/-- **C24, removing past the end** of a non-empty vector: nothing is returned, the last element is
lost. -/
theorem C24_swap_remove_past {O : Type} (cd : Codec O) (c : Nat) (hc : 0 < c)
    (hg : c ∣ 8192 ∨ 8192 ≤ c) (l : List O) (hfit : ∀ o ∈ l, Fits cd c o) (hne : l ≠ [])
    (n : Nat) (hn : l.length ≤ n) :
    ∃ v, runs cd ⟨VecStream.new, c⟩ [.append l.reverse, .swapRemove n, .iter] =
      .ok ([.unit, .opt none, .list (l.take (l.length - 1))], v) := by
  obtain ⟨v, h1, h2, h3⟩ := (IOVec.Repr.new (cd := cd) hc).append l.reverse
    (by simpa [Fits] using hfit)
  simp only [List.reverse_reverse, List.nil_append] at h3
  obtain ⟨v', m', k1, k2, k3⟩ := h3.swapRemove_past n hn hne
  refine ⟨v', ?_⟩
  have := k3.iter (by rw [k2, h2]; exact hg)
  simp [runs, VecOp.run, h1, k1, this, List.dropLast_eq_take]

/-- A history meeting the hypotheses of `C24_partial`. -/
example : Along (VecOp.Ok small 8) [] [.append [(1, 3)], .append [(2, 0)], .swapRemove 0, .set 0 (5, 5), .iter] ∧
    Along VecOp.Plain [] [.append [(1, 3)], .append [(2, 0)], .swapRemove 0, .set 0 (5, 5), .iter] := by
  refine ⟨⟨?_, ?_, trivial, ⟨by decide, ⟨_, rfl, by decide⟩⟩, trivial, trivial⟩,
    by simp [Along, VecOp.Plain, VecOp.spec]⟩
  · intro o ho
    obtain rfl : o = (1, 3) := by simpa using ho
    exact ⟨_, rfl, by decide⟩
  · intro o ho
    obtain rfl : o = (2, 0) := by simpa using ho
    exact ⟨_, rfl, by decide⟩

/-! ## C25, C26: `ByteStream` -/

variable {K V : Type} [LinearOrder K] [LinearOrder V]

/-- Bytes taken by an element: the smallest power of two that is at least its serialised length (two
for an empty serialisation). -/
def IsChunkOf (cd : Codec (K × V)) (e : K × V) (c : Nat) : Prop :=
  ∃ b i, cd.enc e = some b ∧ c = 2 ^ i ∧ b.length ≤ c ∧
    (b ≠ [] → ∀ j, b.length ≤ 2 ^ j → c ≤ 2 ^ j) ∧ (b = [] → c = 2)

/-- Serialisations are at most `2 ^ 63` bytes long. -/
def SmallCodec (cd : Codec (K × V)) : Prop := ∀ e b, cd.enc e = some b → b.length ≤ 2 ^ 63

/-- Everything a `ByteStream` can be made to give back: what `pop(capacity + 1)` returns. -/
def everything (cd : Codec (K × V)) (s : (byteStream cd).State) : List (K × V) :=
  match (byteStream cd).pop s ((byteStream cd).capacity s + 1) with
  | .ok (out, _) => out
  | .panic => []

section
open ByteStream
variable {cd : Codec (K × V)}

omit [LinearOrder K] [LinearOrder V] in
theorem isChunkOf_csz (hsmall : SmallCodec cd) (e : K × V) (h : cd.enc e ≠ none) :
    ∃ i, IsChunkOf cd e (csz cd e) ∧ csz cd e = 2 ^ i ∧ Class cd i e := by
  cases hb : cd.enc e with
  | none => exact absurd hb h
  | some b =>
    by_cases h0 : b = []
    · subst h0
      have hc : csz cd e = 2 := by simp [csz, hb, UtilsProps.C22_chunk_size_zero]
      refine ⟨1, ⟨[], 1, hb, ?_, ?_, fun h => absurd rfl h, fun _ => hc⟩, ?_, [], hb, ?_⟩
      · rw [hc]; rfl
      · simp
      · rw [hc]; rfl
      · simp [UtilsProps.C22_chunk_size_zero]
    · obtain ⟨i, c, h1, h2, h3, h4, h5⟩ := UtilsProps.C22_chunk_size b.length
        (List.length_pos_iff.2 h0) (hsmall e b hb)
      have hc : csz cd e = c := by simp [csz, hb, h1]
      refine ⟨i, ⟨b, i, hb, by rw [hc, h2], by rw [hc]; exact h3, fun _ => by rw [hc]; exact h5,
        fun h => absurd h h0⟩, by rw [hc, h2], b, hb, ?_⟩
      rw [h1, ← h2]

omit [LinearOrder K] [LinearOrder V] in
theorem IsChunkOf.unique {e : K × V} {c c' : Nat} (h : IsChunkOf cd e c) (h' : IsChunkOf cd e c') :
    c = c' := by
  obtain ⟨b, i, h1, h2, h3, h4, h5⟩ := h
  obtain ⟨b', i', h1', h2', h3', h4', h5'⟩ := h'
  rw [h1] at h1'
  cases h1'
  by_cases h0 : b = []
  · rw [h5 h0, h5' h0]
  · apply le_antisymm
    · rw [h2']; exact h4 h0 i' (h2' ▸ h3')
    · rw [h2]; exact h4' h0 i (h2 ▸ h3)

theorem everything_spec (s : ByteStream) (h : Inv cd s) :
    (everything cd s).Perm (stored cd s) := by
  obtain ⟨out, s', h1, h2, h3, h4, h5, -⟩ := pop_spec s h (s.capacity + 1)
  have hb := h.bounded
  have hn : stored cd s' = [] := by
    rcases h5 with h5 | h5
    · omega
    · exact h5
  rw [hn, List.nil_append] at h4
  simp only [everything, byteStream, h1]
  exact h4

omit [LinearOrder K] [LinearOrder V] in
theorem Inv.enc {s : ByteStream} (h : Inv cd s) : ∀ e ∈ stored cd s, cd.enc e ≠ none := by
  obtain ⟨ls, h1, -, -⟩ := h
  rw [stored_eq h1]
  have : ∀ {i : Nat} {st : List (Option IOVec)} {ls : List (List (K × V))},
      Streams cd i st ls → ∀ e ∈ ls.flatten, cd.enc e ≠ none := by
    intro i st ls h
    induction h with
    | nil => simp
    | @cons i o st l ls hg _ ih =>
      intro e he
      rw [List.flatten_cons, List.mem_append] at he
      rcases he with he | he
      · cases o with
        | none => simp only [Good] at hg; subst hg; simp at he
        | some v =>
          obtain ⟨b, hb, -⟩ := hg.2.2 e he
          rw [hb]; simp
      · exact ih e he
  exact this h1

theorem step_inv (hsmall : SmallCodec cd) (s : ByteStream) (h : Inv cd s) (op : Op K V) :
    ∃ out s', (byteStream cd).step s op = .ok (out, s') ∧ Inv cd s' ∧ s'.capacity = s.capacity := by
  cases op with
  | contains k =>
    obtain ⟨b, h1, -⟩ := contains_spec s h k
    exact ⟨[], s, by simp [Block.step, byteStream, h1], h, rfl⟩
  | take k =>
    obtain ⟨o, s', h1, h2, h3, -⟩ := take_spec s h k
    exact ⟨o.toList, s', by simp [Block.step, byteStream, h1], h2, h3⟩
  | takeMultiple ks =>
    obtain ⟨out, ks', h1, -⟩ := takeMultiple_spec s h ks
    exact ⟨out, s, by simp [Block.step, byteStream, h1], h, rfl⟩
  | pop n =>
    obtain ⟨o, s', h1, h2, h3, -⟩ := pop_spec s h n
    exact ⟨o, s', by simp [Block.step, byteStream, h1], h2, h3⟩
  | push l =>
    obtain ⟨o, s', h1, h2, h3, -⟩ := push_spec hsmall s h l
    exact ⟨o, s', by simp [Block.step, byteStream, h1], h2, h3⟩
  | flush =>
    obtain ⟨o, s', h1, h2, h3, -⟩ := flush_spec s h
    exact ⟨o, s', by simp [Block.step, byteStream, h1], h2, h3⟩

theorem run_inv (hsmall : SmallCodec cd) (ops : List (Op K V)) : ∀ (s : ByteStream), Inv cd s →
    ∃ out s', (byteStream cd).run s ops = .ok (out, s') ∧ Inv cd s' ∧ s'.capacity = s.capacity := by
  induction ops with
  | nil => intro s h; exact ⟨[], s, rfl, h, rfl⟩
  | cons op ops ih =>
    intro s h
    obtain ⟨o1, s1, h1, h2, h3⟩ := step_inv hsmall s h op
    obtain ⟨o2, s2, g1, g2, g3⟩ := ih s1 h2
    exact ⟨o1 ++ o2, s2, by simp [Block.run, h1, g1], g2, g3.trans h3⟩

theorem reachable_inv (hsmall : SmallCodec cd) (n : Nat) (s : ByteStream)
    (h : Reachable (byteStream cd) (ByteStream.new n) s) : Inv cd s ∧ s.capacity = n := by
  obtain ⟨ops, out, h⟩ := h
  obtain ⟨out', s', h1, h2, h3⟩ := run_inv hsmall ops (ByteStream.new n) (new_inv n)
  rw [h] at h1
  cases h1
  exact ⟨h2, h3⟩

end

/-- **C25.**  Whatever is called on a new `ByteStream` of capacity `n`, no call panics, the size never
exceeds `n`, and it is the total of the smallest powers of two above the serialised lengths of the
elements stored. -/
theorem C25_size_and_capacity (cd : Codec (K × V)) (hsmall : SmallCodec cd) (n : Nat)
    (ops : List (Op K V)) :
    ∃ out s, (byteStream cd).run (ByteStream.new n) ops = .ok (out, s) ∧
      (byteStream cd).capacity s = n ∧ (byteStream cd).size s ≤ n ∧
      ∃ chunks, List.Forall₂ (IsChunkOf cd) (everything cd s) chunks ∧
        (byteStream cd).size s = chunks.sum := by
  obtain ⟨out, s, h1, h2, h3⟩ := run_inv hsmall ops (ByteStream.new n) (ByteStream.new_inv n)
  have hcap : s.capacity = n := h3
  have hp := everything_spec s h2
  refine ⟨out, s, h1, hcap, by rw [← hcap]; exact h2.bounded,
    (everything cd s).map (ByteStream.csz cd), ?_, ?_⟩
  · rw [List.forall₂_map_right_iff, List.forall₂_same]
    intro e he
    obtain ⟨i, hi, -⟩ := isChunkOf_csz hsmall e (Inv.enc h2 e (hp.subset he))
    exact hi
  · exact h2.size.trans (total_perm _ hp.symm)

/-- Calls of `contains`, `take`, `pop` and `push`. -/
def Moving : Op K V → Prop
  | .takeMultiple _ => False
  | .flush => False
  | _ => True

/-- **C26, histories** of `contains`, `take`, `pop` and `push`: every element given is stored or was
handed back, exactly as many times. -/
theorem C26_conserves (cd : Codec (K × V)) (hsmall : SmallCodec cd) (n : Nat)
    (ops : List (Op K V)) (hops : ∀ op ∈ ops, Moving op) :
    ∃ out s, (byteStream cd).run (ByteStream.new n) ops = .ok (out, s) ∧
      (everything cd s ++ out).Perm (ops.flatMap Op.given) := by
  have key : ∀ (ops : List (Op K V)) (_ : ∀ op ∈ ops, Moving op) (s : ByteStream),
      ByteStream.Inv cd s → ∃ out s', (byteStream cd).run s ops = .ok (out, s') ∧
        ByteStream.Inv cd s' ∧
        (ByteStream.stored cd s' ++ out).Perm (ByteStream.stored cd s ++ ops.flatMap Op.given) := by
    intro ops
    induction ops with
    | nil => intro _ s h; exact ⟨[], s, rfl, h, by simp⟩
    | cons op ops ih =>
      intro hops s h
      have step : ∃ out s', (byteStream cd).step s op = .ok (out, s') ∧ ByteStream.Inv cd s' ∧
          (ByteStream.stored cd s' ++ out).Perm (ByteStream.stored cd s ++ op.given) := by
        have hm := hops op (by simp)
        cases op with
        | contains k =>
          obtain ⟨b, h1, -⟩ := ByteStream.contains_spec s h k
          exact ⟨[], s, by simp [Block.step, byteStream, h1], h, by simp [Op.given]⟩
        | take k =>
          obtain ⟨o, s', h1, h2, h3, h4⟩ := ByteStream.take_spec s h k
          refine ⟨o.toList, s', by simp [Block.step, byteStream, h1], h2, ?_⟩
          cases o with
          | none => simpa [Op.given] using h4.2
          | some e =>
            have h5 := h4.2
            simp only [Op.given, Option.toList]
            perms [h5]
        | takeMultiple ks => exact hm.elim
        | pop k =>
          obtain ⟨o, s', h1, h2, h3, h4, -⟩ := ByteStream.pop_spec s h k
          exact ⟨o, s', by simp [Block.step, byteStream, h1], h2, by simpa [Op.given] using h4⟩
        | push l =>
          obtain ⟨o, s', h1, h2, h3, h4, -⟩ := ByteStream.push_spec hsmall s h l
          exact ⟨o, s', by simp [Block.step, byteStream, h1], h2, by simpa [Op.given] using h4⟩
        | flush => exact hm.elim
      obtain ⟨o1, s1, h1, h2, h3⟩ := step
      obtain ⟨o2, s2, g1, g2, g3⟩ := ih (fun o ho => hops o (by simp [ho])) s1 h2
      refine ⟨o1 ++ o2, s2, by simp [Block.run, h1, g1], g2, ?_⟩
      simp only [List.flatMap_cons]
      perms [h3, g3]
  obtain ⟨out, s, h1, h2, h3⟩ := key ops hops _ (ByteStream.new_inv n)
  rw [ByteStream.new_stored, List.nil_append] at h3
  exact ⟨out, s, h1, ((everything_spec s h2).append_right out).trans h3⟩

/-- **C26, one call**, in any reachable state.  `contains` and `take` agree with what is stored; `pop`
frees what is asked or empties the stream, and evicts the greatest values; `push` returns what it does
not store, an element is refused only if it cannot be serialised or has no room left, and nothing is
refused if there is room for all. -/
theorem C26_calls (cd : Codec (K × V)) (hsmall : SmallCodec cd) (n : Nat) (s : ByteStream)
    (hs : Reachable (byteStream cd) (ByteStream.new n) s) :
    (∀ k, ∃ b, (byteStream cd).contains s k = .ok (b, s) ∧
      (b = true ↔ HasKey (everything cd s) k)) ∧
    (∀ k, ∃ o s', (byteStream cd).take s k = .ok (o, s') ∧
      match o with
      | none => ¬ HasKey (everything cd s) k ∧ (everything cd s').Perm (everything cd s)
      | some e => e.1 = k ∧ (e :: everything cd s').Perm (everything cd s)) ∧
    (∀ m, ∃ out s', (byteStream cd).pop s m = .ok (out, s') ∧
      (everything cd s' ++ out).Perm (everything cd s) ∧
      ((byteStream cd).size s' + m ≤ (byteStream cd).size s ∨ everything cd s' = []) ∧
      ∀ e ∈ out, ∀ d ∈ everything cd s', d.2 ≤ e.2) ∧
    (∀ l, ∃ out s', (byteStream cd).push s l = .ok (out, s') ∧
      (everything cd s' ++ out).Perm (everything cd s ++ l) ∧
      (∀ e ∈ out, e ∈ l ∧ (cd.enc e = none ∨ ∃ c, IsChunkOf cd e c ∧
        n < c + (byteStream cd).size s')) ∧
      (∀ chunks, List.Forall₂ (IsChunkOf cd) l chunks → (byteStream cd).size s + chunks.sum ≤ n →
        out = [])) := by
  obtain ⟨hi, hcap⟩ := reachable_inv hsmall n s hs
  have hp := everything_spec s hi
  have hk : ∀ k, HasKey (everything cd s) k ↔ HasKey (ByteStream.stored cd s) k := by
    intro k; simp only [HasKey, hp.mem_iff]
  refine ⟨?_, ?_, ?_, ?_⟩
  · intro k
    obtain ⟨b, h1, h2⟩ := ByteStream.contains_spec s hi k
    exact ⟨b, by simp [byteStream, h1], h2.trans (hk k).symm⟩
  · intro k
    obtain ⟨o, s', h1, h2, h3, h4⟩ := ByteStream.take_spec s hi k
    refine ⟨o, s', h1, ?_⟩
    have hp' := everything_spec s' h2
    cases o with
    | none => exact ⟨fun h => h4.1 ((hk k).1 h), hp'.trans (h4.2.trans hp.symm)⟩
    | some e => exact ⟨h4.1, (hp'.cons e).trans (h4.2.trans hp.symm)⟩
  · intro m
    obtain ⟨o, s', h1, h2, h3, h4, h5, h6⟩ := ByteStream.pop_spec s hi m
    have hp' := everything_spec s' h2
    refine ⟨o, s', h1, (hp'.append_right o).trans (h4.trans hp.symm), ?_, ?_⟩
    · rcases h5 with h5 | h5
      · exact Or.inl h5
      · rw [h5] at hp'; exact Or.inr hp'.eq_nil
    · exact fun e he d hd => h6 e he d (hp'.subset hd)
  · intro l
    obtain ⟨o, s', h1, h2, h3, h4, h5, h6⟩ := ByteStream.push_spec hsmall s hi l
    have hp' := everything_spec s' h2
    refine ⟨o, s', h1, ?_, ?_, ?_⟩
    · perms [hp', hp, h4]
    · intro e he
      refine ⟨(h5 e he).1, ?_⟩
      by_cases hn : cd.enc e = none
      · exact Or.inl hn
      · right
        obtain ⟨i, hi, -⟩ := isChunkOf_csz hsmall e hn
        refine ⟨_, hi, ?_⟩
        rcases (h5 e he).2 with h | h
        · exact absurd h hn
        · rw [hcap] at h; exact h
    · intro chunks hc hroom
      have hc' : chunks = l.map (ByteStream.csz cd) := by
        clear h1 h4 h5 h6 hroom
        induction hc with
        | nil => rfl
        | @cons e c l cs he _ ih =>
          have hne : cd.enc e ≠ none := by
            obtain ⟨b, i, h1, -⟩ := he
            rw [h1]; simp
          obtain ⟨i, hi, -⟩ := isChunkOf_csz hsmall e hne
          rw [List.map_cons, ← ih, he.unique hi]
      refine h6 ?_ ?_
      · intro e he
        obtain ⟨hl, hget⟩ := List.forall₂_iff_get.1 hc
        obtain ⟨j, hj, rfl⟩ := List.mem_iff_getElem.1 he
        obtain ⟨b, i, h1, -⟩ := hget j hj (by omega)
        rw [List.get_eq_getElem] at h1
        rw [h1]; simp
      · rw [hc'] at hroom
        rw [hcap]; exact hroom

/-- **C26, accesses.**  `get` returns the value of an element with the key, if there is one, and
changes nothing.  Writing through the cell of `get_mut` a value that takes as many bytes replaces the
value of one element with this key and changes nothing else. -/
theorem C26_accesses (cd : Codec (K × V)) (hsmall : SmallCodec cd) (n : Nat) (s : ByteStream)
    (hs : Reachable (byteStream cd) (ByteStream.new n) s) (k : K) :
    (∀ touch, ∃ o, (byteStreamGet cd).get s k touch = .ok (o, s) ∧
      match o with
      | none => ¬ HasKey (everything cd s) k
      | some v => (k, v) ∈ everything cd s) ∧
    (∀ f : V → V, (∀ k v c, IsChunkOf cd (k, v) c → IsChunkOf cd (k, f v) c) →
      ∃ o s', (byteStreamGet cd).getMut s k f = .ok (o, s') ∧
        (byteStream cd).size s' ≤ n ∧
        match o with
        | none => ¬ HasKey (everything cd s) k ∧ (everything cd s').Perm (everything cd s)
        | some v => ∃ rest, (everything cd s).Perm ((k, v) :: rest) ∧
            (everything cd s').Perm ((k, f v) :: rest)) := by
  obtain ⟨hi, hcap⟩ := reachable_inv hsmall n s hs
  have hp := everything_spec s hi
  have hk : ∀ k, HasKey (everything cd s) k ↔ HasKey (ByteStream.stored cd s) k := by
    intro k; simp only [HasKey, hp.mem_iff]
  constructor
  · intro touch
    obtain ⟨o, h1, h2⟩ := ByteStream.get_spec s hi k touch
    refine ⟨o, h1, ?_⟩
    cases o with
    | none => exact fun h => h2 ((hk k).1 h)
    | some v => exact hp.symm.subset h2
  · intro f hf
    have hsc : ByteStream.SameClass cd f := by
      intro i k v hc
      obtain ⟨b, h1, h2⟩ := hc
      obtain ⟨j, hj1, hj2, hj3⟩ := isChunkOf_csz hsmall (k, v) (by rw [h1]; simp)
      have hcs : ByteStream.csz cd (k, v) = 2 ^ i := ByteStream.Class.csz ⟨b, h1, h2⟩
      have h3 := hf k v _ hj1
      have hne : cd.enc (k, f v) ≠ none := by
        obtain ⟨b, i, h1, -⟩ := h3
        rw [h1]; simp
      obtain ⟨j', hj1', hj2', hj3'⟩ := isChunkOf_csz hsmall (k, f v) hne
      have := h3.unique hj1'
      rw [hcs, hj2'] at this
      have : i = j' := Nat.pow_right_injective (le_refl 2) this
      rw [this]; exact hj3'
    obtain ⟨o, s', h1, h2, h3, h4⟩ := ByteStream.getMut_spec hsmall s hi k f hsc
    have hp' := everything_spec s' h2
    have hb := h2.bounded
    refine ⟨o, s', h1, by rw [← hcap, ← h3]; exact hb, ?_⟩
    cases o with
    | none => exact ⟨fun h => h4.1 ((hk k).1 h), hp'.trans (h4.2.trans hp.symm)⟩
    | some v =>
      obtain ⟨r, r1, r2⟩ := h4
      exact ⟨r, hp.trans r1, hp'.trans r2⟩

theorem small_small : SmallCodec small := by
  intro e b h
  simp only [small] at h
  split at h
  · simp only [Option.some.injEq] at h
    subst h
    simp only [List.length_cons, List.length_replicate]
    omega
  · simp at h

/-- A history on a `ByteStream`. -/
example : (((byteStream small).run (ByteStream.new 16)
    [.push [(1, 0), (2, 9), (3, 2), (4, 0)], .take 1, .contains 3]).bind fun r =>
      .ok (r.1, (byteStream small).size r.2)) = .ok ([(2, 9), (1, 0)], 6) := by
  decide +kernel

/-- **C26, writing a longer value** through the cell of `get_mut` overwrites the next element: here
writing to key 1 makes key 2 disappear. -/
theorem C26_longer_write_corrupts :
    (((byteStream small).push (ByteStream.new 16) [(1, 0), (2, 0)]).bind fun r =>
      ((byteStreamGet small).getMut r.2 1 (fun _ => 2)).bind fun q =>
        ((byteStream small).contains q.2 2).bind fun p => .ok (r.1, q.1, p.1)) =
    .ok ([], some 0, false) := by
  decide +kernel

/-! ## C27: `take_multiple` and `flush` -/

/-- **C27 in full**: in every reachable state, `take_multiple` removes the elements it returns and
`flush` returns everything. -/
def C27_full : Prop := ∀ (K V : Type) (_ : LinearOrder K) (_ : LinearOrder V) (cd : Codec (K × V)),
  SmallCodec cd → ∀ (n : Nat) (s : ByteStream),
    Reachable (byteStream cd) (ByteStream.new n) s →
    (∀ ks, ∃ out ks' s', (byteStream cd).takeMultiple s ks = .ok (out, ks', s') ∧
      (everything cd s' ++ out).Perm (everything cd s)) ∧
    (∃ out s', (byteStream cd).flush s = .ok (out, s') ∧ out.Perm (everything cd s))

/-- **C27, what holds.**  `take_multiple` returns stored elements with requested keys, one for each key
stored, consumes the keys found, and *leaves the container as it is*; `flush` empties the container and
returns some of the elements that were stored. -/
theorem C27_partial (cd : Codec (K × V)) (hsmall : SmallCodec cd) (n : Nat) (s : ByteStream)
    (hs : Reachable (byteStream cd) (ByteStream.new n) s) :
    (∀ ks, ∃ out ks', (byteStream cd).takeMultiple s ks = .ok (out, ks', s) ∧
      out.Subperm (everything cd s) ∧ (out.map Prod.fst ++ ks').Perm ks ∧
      ∀ k ∈ ks, HasKey (everything cd s) k → HasKey out k) ∧
    (∃ out s', (byteStream cd).flush s = .ok (out, s') ∧ out.Subperm (everything cd s) ∧
      everything cd s' = [] ∧ (byteStream cd).size s' = 0) := by
  obtain ⟨hi, hcap⟩ := reachable_inv hsmall n s hs
  have hp := everything_spec s hi
  constructor
  · intro ks
    obtain ⟨out, ks', h1, h2, h3, h4⟩ := ByteStream.takeMultiple_spec s hi ks
    refine ⟨out, ks', h1, h2.subperm.trans hp.symm.subperm, h3, fun k hk hh => h4 k hk ?_⟩
    obtain ⟨v, hv⟩ := hh
    exact ⟨v, hp.subset hv⟩
  · obtain ⟨out, s', h1, h2, h3, h4, h5⟩ := ByteStream.flush_spec s hi
    have hp' := everything_spec s' h2
    have hsz := h2.size
    rw [h4] at hp' hsz
    exact ⟨out, s', h1, h5.subperm.trans hp.symm.subperm, hp'.eq_nil, hsz⟩

/-- **C27 is false in full**: `take_multiple` leaves in the container what it returns. -/
theorem C27_false : ¬ C27_full := by
  intro h
  obtain ⟨s, hs⟩ : ∃ s, (byteStream small).push (ByteStream.new 16) [(1, 0)] = .ok ([], s) := by
    obtain ⟨o, s, h1, -, -, -, -, h6⟩ := ByteStream.push_spec small_small (ByteStream.new 16)
      (ByteStream.new_inv 16) [(1, 0)]
    have : o = [] := by
      have h2 : ((byteStream small).push (ByteStream.new 16) [(1, 0)]).bind (fun r => .ok r.1) = .ok [] := by
        decide +kernel
      have h3 : (byteStream small).push (ByteStream.new 16) [(1, 0)] = .ok (o, s) := h1
      rw [h3] at h2
      simpa [Res.bind] using h2
    subst this
    exact ⟨s, h1⟩
  have hr : Reachable (byteStream small) (ByteStream.new 16) s :=
    ⟨[.push [(1, 0)]], [], by simp [Block.run, Block.step, hs]⟩
  obtain ⟨h1, -⟩ := h _ _ _ _ small small_small 16 s hr
  obtain ⟨out, ks', s', e, hp⟩ := h1 [1]
  have heq : ((byteStream small).push (ByteStream.new 16) [(1, 0)]).bind (fun r =>
      ((byteStream small).takeMultiple r.2 [1]).bind fun q =>
        .ok (q.1, everything small q.2.2, everything small r.2)) =
      .ok ([(1, 0)], [(1, 0)], [(1, 0)]) := by decide +kernel
  simp only [hs, Res.bind, e, Res.ok.injEq, Prod.mk.injEq] at heq
  obtain ⟨a, b, c⟩ := heq
  rw [a, b, c] at hp
  have := hp.length_eq
  simp at this

/-- **C27, flush after push**: the element just pushed is lost. -/
theorem C27_flush_loses :
    (((byteStream small).push (ByteStream.new 16) [(1, 0)]).bind fun r =>
      ((byteStream small).flush r.2).bind fun q =>
        .ok (r.1, everything small r.2, q.1, everything small q.2)) =
    .ok ([], [(1, 0)], [], []) := by
  decide +kernel

end StreamProps
end Byoc
