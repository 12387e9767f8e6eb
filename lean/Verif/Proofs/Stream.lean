import Verif.Model.Stream
import Verif.Proofs.Utils
import Verif.Proofs.Std

/-!
# VecStream and IOVec: proofs
-/

namespace Byoc

namespace VecStream

theorem read_spec (s : VecStream) (n : Nat) (h : s.pos ≤ s.vec.length) :
    ∃ p, s.read n = ((s.vec.drop s.pos).take n, ⟨s.vec, p⟩) ∧ p ≤ s.vec.length ∧
      p = s.pos + min n (s.vec.length - s.pos) ∧ s.vec.drop p = (s.vec.drop s.pos).drop n := by
  unfold read
  split
  · rename_i hge
    have : s.pos = s.vec.length := by omega
    refine ⟨s.pos, ?_, h, by omega, by simp [this]⟩
    have h0 : s.vec.drop s.pos = [] := List.drop_of_length_le hge
    rw [h0, List.take_nil]
  · split
    · refine ⟨s.pos + (s.vec.length - s.pos), ?_, by omega, by omega, ?_⟩
      · simp only
        rw [List.take_of_length_le (by simp),
          List.take_of_length_le (i := n) (by rw [List.length_drop]; omega)]
      · rw [List.drop_drop, List.drop_of_length_le (by omega), List.drop_of_length_le (by omega)]
    · exact ⟨s.pos + n, rfl, by omega, by omega, by rw [List.drop_drop]⟩

theorem write_spec (s : VecStream) (buf : List UInt8) (h : s.pos ≤ s.vec.length) :
    s.write buf = .ok (buf.length, ⟨overwrite s.vec s.pos buf, s.pos + buf.length⟩) := by
  simp only [write, Res.sub_ok h, Res.ok_bind, Res.pure_eq]
  congr 3
  split
  · rename_i hlt
    unfold overwrite resizeVec
    rw [if_neg (by omega), List.take_append_of_le_length h]
    congr 1
    rw [List.drop_of_length_le (by simp; omega), List.drop_of_length_le (by omega)]
  · rfl

theorem seek_start (s : VecStream) (n : Nat) :
    s.seek (.start n) = (min n s.vec.length, ⟨s.vec, min n s.vec.length⟩) := by
  unfold seek
  simp only
  split
  · omega
  · split
    · have : min n s.vec.length = s.vec.length := by omega
      simp [this]
    · have : min n s.vec.length = n := by omega
      simp [this]

theorem seek_end (s : VecStream) :
    s.seek (.end 0) = (s.vec.length, ⟨s.vec, s.vec.length⟩) := by
  unfold seek
  simp only
  split
  · omega
  · split
    · omega
    · simp

end VecStream

/-! ## Lists of chunks -/

theorem drop_take_append {E : Type} {c n : Nat} (h : c ≤ n) (l : List E) :
    (l.take n).drop c ++ l.drop n = l.drop c := by
  rw [List.drop_take]
  have : l.drop n = (l.drop c).drop (n - c) := by rw [List.drop_drop]; congr 1; omega
  rw [this, List.take_append_drop]

section chunks
variable {c : Nat}

theorem flatten_length (chs : List (List UInt8)) (h : ∀ x ∈ chs, x.length = c) :
    chs.flatten.length = chs.length * c := by
  induction chs with
  | nil => simp
  | cons x xs ih =>
    rw [List.flatten_cons, List.length_append, h x (by simp), ih (fun y hy => h y (by simp [hy])),
      List.length_cons, Nat.succ_mul, Nat.add_comm]

theorem flatten_drop (chs : List (List UInt8)) (h : ∀ x ∈ chs, x.length = c) (n : Nat) :
    chs.flatten.drop (n * c) = (chs.drop n).flatten := by
  induction n generalizing chs with
  | zero => simp
  | succ n ih =>
    cases chs with
    | nil => simp
    | cons x xs =>
      have hx := h x (by simp)
      rw [List.flatten_cons, Nat.succ_mul, Nat.add_comm, ← hx, ← List.drop_drop, List.drop_left, hx,
        ih xs (fun y hy => h y (by simp [hy]))]
      rfl

theorem flatten_take (chs : List (List UInt8)) (h : ∀ x ∈ chs, x.length = c) (n : Nat) :
    chs.flatten.take (n * c) = (chs.take n).flatten := by
  induction n generalizing chs with
  | zero => simp
  | succ n ih =>
    cases chs with
    | nil => simp
    | cons x xs =>
      have hx := h x (by simp)
      have : (n + 1) * c = x.length + n * c := by rw [hx, Nat.succ_mul, Nat.add_comm]
      rw [List.flatten_cons, this, List.take_length_add_append,
        ih xs (fun y hy => h y (by simp [hy]))]
      rfl

theorem overwrite_flatten (chs : List (List UInt8)) (h : ∀ x ∈ chs, x.length = c) (n : Nat)
    (b : List UInt8) (hb : b.length ≤ c) (x : List UInt8) (hn : chs[n]? = some x) :
    VecStream.overwrite chs.flatten (n * c) b = (chs.set n (b ++ x.drop b.length)).flatten := by
  induction n generalizing chs with
  | zero =>
    cases chs with
    | nil => simp at hn
    | cons y xs =>
      simp only [List.getElem?_cons_zero, Option.some.injEq] at hn
      subst hn
      have hy := h y (by simp)
      simp only [VecStream.overwrite, Nat.zero_mul, List.take_zero, List.nil_append, Nat.zero_add,
        List.flatten_cons, List.set_cons_zero, List.append_assoc]
      rw [List.drop_append_of_le_length (by omega)]
  | succ n ih =>
    cases chs with
    | nil => simp at hn
    | cons y xs =>
      have hy := h y (by simp)
      have := ih xs (fun z hz => h z (by simp [hz])) (by simpa using hn)
      have e : (n + 1) * c = y.length + n * c := by rw [hy, Nat.succ_mul, Nat.add_comm]
      simp only [List.set_cons_succ, List.flatten_cons, ← this, VecStream.overwrite]
      rw [e, List.take_length_add_append, Nat.add_assoc, List.drop_length_add_append]
      simp [List.append_assoc]

end chunks

namespace IOVec

variable {O : Type} (cd : Codec O)

/-- The bytes `ch` are a chunk of `c` bytes holding `o`, padded with anything. -/
def IsChunk (c : Nat) (o : O) (ch : List UInt8) : Prop :=
  ch.length = c ∧ ∃ b pad, cd.enc o = some b ∧ ch = b ++ pad

theorem IsChunk.dec {cd : Codec O} {c : Nat} {o : O} {ch : List UInt8} (h : IsChunk cd c o ch) :
    cd.dec ch = some o := by
  obtain ⟨-, b, pad, h1, h2⟩ := h
  rw [h2]; exact cd.law o b pad h1

theorem chunkOf_isChunk {cd : Codec O} {c : Nat} {o : O} {ch : List UInt8}
    (h : chunkOf cd c o = some ch) : IsChunk cd c o ch := by
  unfold chunkOf at h
  split at h
  · simp at h
  · rename_i b hb
    split at h
    · simp at h
    · simp only [Option.some.injEq] at h
      subst h
      exact ⟨by simp; omega, b, _, hb, rfl⟩

theorem chunkOf_some {cd : Codec O} {c : Nat} {o : O} {b : List UInt8} (hb : cd.enc o = some b)
    (hc : b.length ≤ c) : ∃ ch, chunkOf cd c o = some ch := by
  unfold chunkOf
  rw [hb]
  simp only
  rw [if_neg (by omega)]
  exact ⟨_, rfl⟩

/-- **Representation.**  The bytes of the stream are the chunks of the elements `l`, in order; the
cursor is at the start of chunk `m`. -/
structure Repr (v : IOVec) (l : List O) (m : Nat) : Prop where
  pos : 0 < v.chunk
  cursor : v.stream.pos = m * v.chunk
  cursor_le : m ≤ l.length
  bytes : ∃ chs, v.stream.vec = chs.flatten ∧ List.Forall₂ (IsChunk cd v.chunk) l chs

variable {cd}

theorem forall₂_len {c : Nat} {l : List O} {chs : List (List UInt8)}
    (h : List.Forall₂ (IsChunk cd c) l chs) : ∀ x ∈ chs, x.length = c := by
  induction h with
  | nil => simp
  | cons hx _ ih =>
    intro y hy
    rcases List.mem_cons.1 hy with rfl | hy
    · exact hx.1
    · exact ih y hy

theorem Repr.size {v : IOVec} {l : List O} {m : Nat} (h : Repr cd v l m) :
    v.size = l.length * v.chunk := by
  obtain ⟨chs, e, f⟩ := h.bytes
  rw [IOVec.size, VecStream.seek_end, e, flatten_length chs (forall₂_len f), f.length_eq]

theorem Repr.vec_length {v : IOVec} {l : List O} {m : Nat} (h : Repr cd v l m) :
    v.stream.vec.length = l.length * v.chunk := by
  have := h.size
  rwa [IOVec.size, VecStream.seek_end] at this

theorem Repr.pos_le {v : IOVec} {l : List O} {m : Nat} (h : Repr cd v l m) :
    v.stream.pos ≤ v.stream.vec.length := by
  rw [h.vec_length, h.cursor]
  exact Nat.mul_le_mul_right _ h.cursor_le

/-- Chunk sizes for which the buffered reads of the iterators are never cut by the end of the buffer. -/
def GoodChunk (c : Nat) : Prop := c ∣ bufCap ∨ bufCap ≤ c

theorem goodChunk_pow (i : Nat) : GoodChunk (2 ^ i) := by
  unfold GoodChunk bufCap
  by_cases h : i ≤ 13
  · exact Or.inl (pow_dvd_pow 2 h)
  · exact Or.inr (Nat.pow_le_pow_right (n := 2) (by decide) (show 13 ≤ i by omega))

theorem iterGo_spec {c : Nat} (hc : 0 < c) (hg : GoodChunk c) (l : List O) :
    ∀ (chs : List (List UInt8)) (s : VecStream) (buf : List UInt8) (fuel : Nat),
    List.Forall₂ (IsChunk cd c) l chs → s.pos ≤ s.vec.length →
    buf ++ s.vec.drop s.pos = chs.flatten → (c ∣ buf.length) → (bufCap ≤ c → buf = []) →
    l.length < fuel → iterGo cd c fuel s buf = .ok l := by
  induction l with
  | nil =>
    intro chs s buf fuel hf hp hb hd hbig hfuel
    cases hf
    simp only [List.flatten_nil, List.append_eq_nil_iff] at hb
    obtain ⟨rfl, hb⟩ := hb
    cases fuel with
    | zero => simp at hfuel
    | succ fuel =>
      obtain ⟨p, r1, -⟩ := VecStream.read_spec s c hp
      obtain ⟨p', r1', -⟩ := VecStream.read_spec s bufCap hp
      have hr : (bufRead s [] c).1 = [] := by
        unfold bufRead
        split
        · simp only [r1, hb, List.take_nil]
        · simp only [if_true, r1', hb, List.take_nil]
      simp only [iterGo, hr]
      simp [hc]
  | cons o l ih =>
    intro chs s buf fuel hf hp hb hd hbig hfuel
    cases hf with
    | @cons _ ch _ chs hch hrest =>
    cases fuel with
    | zero => simp at hfuel
    | succ fuel =>
      have hlen := forall₂_len hrest
      have hchlen : ch.length = c := hch.1
      have step : ∃ s' buf', bufRead s buf c = (ch, s', buf') ∧ s'.vec = s.vec ∧
          s'.pos ≤ s'.vec.length ∧ buf' ++ s'.vec.drop s'.pos = chs.flatten ∧ c ∣ buf'.length ∧
          (bufCap ≤ c → buf' = []) := by
        unfold bufRead
        by_cases hbig' : buf = [] ∧ bufCap ≤ c
        · rw [if_pos hbig']
          obtain ⟨p, r1, r2, -, r4⟩ := VecStream.read_spec s c hp
          rw [hbig'.1] at hb
          simp only [List.nil_append, List.flatten_cons] at hb
          refine ⟨⟨s.vec, p⟩, [], ?_, rfl, r2, ?_, by simp, fun _ => rfl⟩
          · simp only [r1, hb]
            rw [← hchlen, List.take_left]
          · simp only [List.nil_append, r4, hb]
            rw [← hchlen, List.drop_left]
        · rw [if_neg hbig']
          by_cases hnil : buf = []
          · subst hnil
            have hsmall : ¬ bufCap ≤ c := fun h => hbig' ⟨rfl, h⟩
            have hdvd : c ∣ bufCap := by
              rcases hg with h | h
              · exact h
              · exact absurd h hsmall
            obtain ⟨p, r1, r2, -, r4⟩ := VecStream.read_spec s bufCap hp
            simp only [List.nil_append, List.flatten_cons] at hb
            refine ⟨⟨s.vec, p⟩, ((ch ++ chs.flatten).take bufCap).drop c, ?_, rfl, r2, ?_, ?_,
              fun h => absurd h hsmall⟩
            · simp only [if_true, r1, hb]
              rw [List.take_take, Nat.min_eq_left (by omega)]
              rw [← hchlen, List.take_left]
            · simp only [r4, hb]
              have : ((ch ++ chs.flatten).take bufCap).drop c ++ (ch ++ chs.flatten).drop bufCap =
                  (ch ++ chs.flatten).drop c := by
                exact drop_take_append (by omega) _
              rw [this, ← hchlen, List.drop_left]
            · rw [List.length_drop, List.length_take, List.length_append,
                flatten_length chs hlen, hchlen]
              rcases Nat.le_total bufCap (c + chs.length * c) with h | h
              · rw [Nat.min_eq_left h]
                exact Nat.dvd_sub hdvd (dvd_refl c)
              · rw [Nat.min_eq_right h, Nat.add_sub_cancel_left]
                exact Dvd.intro_left _ rfl
          · have hge : c ≤ buf.length := Nat.le_of_dvd (List.length_pos_iff.2 hnil) hd
            simp only [hnil, if_false]
            simp only [List.flatten_cons] at hb
            have h1 : buf.take c = ch := by
              have := congrArg (List.take c) hb
              rw [List.take_append_of_le_length hge] at this
              rw [this, ← hchlen, List.take_left]
            have h2 : buf.drop c ++ s.vec.drop s.pos = chs.flatten := by
              have := congrArg (List.drop c) hb
              rw [List.drop_append_of_le_length hge] at this
              rw [this, ← hchlen, List.drop_left]
            refine ⟨s, buf.drop c, by rw [h1], rfl, hp, h2, ?_, fun h => absurd (hbig h) hnil⟩
            rw [List.length_drop]
            exact Nat.dvd_sub hd (dvd_refl c)
      obtain ⟨s', buf', e1, e2, e3, e4, e5, e6⟩ := step
      simp only [iterGo, e1, hchlen]
      rw [if_neg (by omega), hch.dec]
      simp only [Res.unwrap_some, Res.ok_bind]
      rw [ih chs s' buf' fuel hrest e3 e4 e5 e6 (by simpa using hfuel)]
      rfl

theorem Repr.len_lt {v : IOVec} {l : List O} {m : Nat} (h : Repr cd v l m) :
    l.length < v.stream.vec.length + 1 := by
  rw [h.vec_length]
  have := Nat.le_mul_of_pos_right l.length h.pos
  omega

theorem Repr.iter {v : IOVec} {l : List O} {m : Nat} (h : Repr cd v l m) (hg : GoodChunk v.chunk) :
    v.iter cd = .ok l := by
  obtain ⟨chs, e, f⟩ := h.bytes
  unfold IOVec.iter
  rw [VecStream.seek_start]
  exact iterGo_spec h.pos hg l chs _ _ _ f (by simp) (by simp [e]) (by simp) (by simp) h.len_lt

theorem forall₂_drop {c : Nat} {l : List O} {chs : List (List UInt8)}
    (h : List.Forall₂ (IsChunk cd c) l chs) (n : Nat) :
    List.Forall₂ (IsChunk cd c) (l.drop n) (chs.drop n) := by
  induction n generalizing l chs with
  | zero => simpa using h
  | succ n ih => cases h with
    | nil => simp
    | cons _ h => simpa using ih h

theorem Repr.intoIter {v : IOVec} {l : List O} {m : Nat} (h : Repr cd v l m)
    (hg : GoodChunk v.chunk) : v.intoIter cd = .ok (l.drop m) := by
  obtain ⟨chs, e, f⟩ := h.bytes
  unfold IOVec.intoIter
  refine iterGo_spec h.pos hg (l.drop m) (chs.drop m) _ _ _ (forall₂_drop f m) h.pos_le ?_ (by simp)
    (by simp) (lt_of_le_of_lt (by simp) h.len_lt)
  rw [List.nil_append, h.cursor, e, flatten_drop chs (forall₂_len f)]

theorem forall₂_get {c : Nat} {l : List O} {chs : List (List UInt8)}
    (h : List.Forall₂ (IsChunk cd c) l chs) (n : Nat) (o : O) (hn : l[n]? = some o) :
    ∃ ch, chs[n]? = some ch ∧ IsChunk cd c o ch := by
  induction h generalizing n with
  | nil => simp at hn
  | @cons a b l chs hx _ ih =>
    cases n with
    | zero => simp at hn; subst hn; exact ⟨b, by simp, hx⟩
    | succ n => simpa using ih n (by simpa using hn)

theorem forall₂_set {c : Nat} {l : List O} {chs : List (List UInt8)}
    (h : List.Forall₂ (IsChunk cd c) l chs) (n : Nat) (o : O) (ch : List UInt8)
    (hc : IsChunk cd c o ch) : List.Forall₂ (IsChunk cd c) (l.set n o) (chs.set n ch) := by
  induction h generalizing n with
  | nil => simp
  | cons hx hr ih =>
    cases n with
    | zero => simpa using ⟨hc, hr⟩
    | succ n => simpa using ⟨hx, ih n⟩

theorem forall₂_take {c : Nat} {l : List O} {chs : List (List UInt8)}
    (h : List.Forall₂ (IsChunk cd c) l chs) (n : Nat) :
    List.Forall₂ (IsChunk cd c) (l.take n) (chs.take n) := by
  induction n generalizing l chs with
  | zero => simp
  | succ n ih => cases h with
    | nil => simp
    | cons hx h => simpa using ⟨hx, ih h⟩

theorem forall₂_append {c : Nat} {l l' : List O} {chs chs' : List (List UInt8)}
    (h : List.Forall₂ (IsChunk cd c) l chs) (h' : List.Forall₂ (IsChunk cd c) l' chs') :
    List.Forall₂ (IsChunk cd c) (l ++ l') (chs ++ chs') := by
  induction h with
  | nil => simpa
  | cons hx _ ih => simpa using ⟨hx, ih⟩

/-- Reading the chunk at index `n` of a stream of chunks. -/
theorem read_chunk {c : Nat} {l : List O} {chs : List (List UInt8)}
    (f : List.Forall₂ (IsChunk cd c) l chs) (s : VecStream) (e : s.vec = chs.flatten) (n : Nat)
    (hs : s.pos = min (n * c) s.vec.length) (hc : 0 < c) :
    match l[n]? with
    | none => (s.read c).1 = [] ∧ (s.read c).2.vec = s.vec
    | some o => ∃ ch, chs[n]? = some ch ∧ IsChunk cd c o ch ∧
        s.read c = (ch, ⟨s.vec, (n + 1) * c⟩) := by
  have hlen := forall₂_len f
  have hvl : s.vec.length = l.length * c := by rw [e, flatten_length chs hlen, f.length_eq]
  obtain ⟨p, r1, r2, r3, r4⟩ := VecStream.read_spec s c (by omega)
  cases hn : l[n]? with
  | none =>
    simp only
    have hge : l.length ≤ n := by simpa using hn
    have : s.pos = s.vec.length := by
      rw [hs, hvl]; exact Nat.min_eq_right (Nat.mul_le_mul_right c hge)
    rw [r1]
    simp [this]
  | some o =>
    simp only
    obtain ⟨ch, g1, g2⟩ := forall₂_get f n o hn
    have hlt : n < l.length := (List.getElem?_eq_some_iff.1 hn).1
    have hmul : (n + 1) * c ≤ l.length * c := Nat.mul_le_mul_right c hlt
    rw [Nat.succ_mul] at hmul
    have hpos : s.pos = n * c := by rw [hs, hvl]; omega
    refine ⟨ch, g1, g2, ?_⟩
    have h1 : (s.vec.drop s.pos).take c = ch := by
      rw [hpos, e, flatten_drop chs hlen]
      obtain ⟨hi, hi'⟩ := List.getElem?_eq_some_iff.1 g1
      rw [List.drop_eq_getElem_cons hi, hi', List.flatten_cons, ← g2.1, List.take_left]
    rw [r1, h1]
    congr 2
    rw [r3, hpos, Nat.succ_mul]; omega

theorem Repr.get {v : IOVec} {l : List O} {m : Nat} (h : Repr cd v l m) (n : Nat) :
    v.get cd n = .ok l[n]? := by
  obtain ⟨chs, e, f⟩ := h.bytes
  have := read_chunk f (v.stream.seek (.start (n * v.chunk))).2 (by rw [VecStream.seek_start]; exact e)
    n (by rw [VecStream.seek_start]) h.pos
  unfold IOVec.get
  simp only
  cases hn : l[n]? with
  | none =>
    rw [hn] at this
    simp only at this
    rw [this.1]
    simp [h.pos]
  | some o =>
    rw [hn] at this
    simp only at this
    obtain ⟨ch, -, g2, g3⟩ := this
    rw [g3]
    simp [g2.1, g2.dec]

theorem Repr.len {v : IOVec} {l : List O} {m : Nat} (h : Repr cd v l m) : v.len = l.length := by
  have := h.size
  unfold IOVec.size at this
  rw [IOVec.len, this, Nat.mul_div_cancel _ h.pos]

theorem Repr.append_one {v : IOVec} {l : List O} {m : Nat} (h : Repr cd v l m) (o : O)
    (hfit : ∃ b, cd.enc o = some b ∧ b.length ≤ v.chunk) :
    ∃ v', v.append cd [o] = .ok (true, v') ∧ v'.chunk = v.chunk ∧
      Repr cd v' (l ++ [o]) (l.length + 1) := by
  obtain ⟨chs, e, f⟩ := h.bytes
  obtain ⟨b, hb, hbl⟩ := hfit
  obtain ⟨ch, hch⟩ := chunkOf_some hb hbl
  have hc := chunkOf_isChunk hch
  have hw := VecStream.write_spec ⟨v.stream.vec, v.stream.vec.length⟩ ch (le_refl _)
  have hov : VecStream.overwrite v.stream.vec v.stream.vec.length ch = v.stream.vec ++ ch := by
    unfold VecStream.overwrite
    rw [List.take_length, List.drop_of_length_le (by omega), List.append_nil]
  refine ⟨⟨⟨v.stream.vec ++ ch, v.stream.vec.length + ch.length⟩, v.chunk⟩, ?_, rfl, h.pos, ?_, ?_,
    chs ++ [ch], by simp [e], forall₂_append f (by simpa using hc)⟩
  · simp [IOVec.append, VecStream.seek_end, appendLoop, hch, hw, hov]
  · simp only
    rw [h.vec_length, hc.1, Nat.succ_mul]
  · simp

theorem appendLoop_spec {c : Nat} (_ : 0 < c) (l : List O) : ∀ (s : VecStream) (old : List O)
    (chs : List (List UInt8)), s.pos = s.vec.length → s.vec = chs.flatten →
    List.Forall₂ (IsChunk cd c) old chs → (∀ o ∈ l, ∃ b, cd.enc o = some b ∧ b.length ≤ c) →
    ∃ s' chs', appendLoop cd c l s = .ok (true, s') ∧ s'.pos = s'.vec.length ∧
      s'.vec = chs'.flatten ∧ List.Forall₂ (IsChunk cd c) (old ++ l) chs' := by
  induction l with
  | nil => intro s old chs h1 h2 h3 _; exact ⟨s, chs, rfl, h1, h2, by simpa using h3⟩
  | cons o l ih =>
    intro s old chs h1 h2 h3 hfit
    obtain ⟨b, hb, hbl⟩ := hfit o (by simp)
    obtain ⟨ch, hch⟩ := chunkOf_some hb hbl
    have hcc := chunkOf_isChunk hch
    have hw := VecStream.write_spec s ch (by omega)
    have hov : VecStream.overwrite s.vec s.pos ch = s.vec ++ ch := by
      unfold VecStream.overwrite
      rw [h1, List.take_length, List.drop_of_length_le (by omega), List.append_nil]
    obtain ⟨s', chs', g1, g2, g3, g4⟩ := ih ⟨s.vec ++ ch, s.pos + ch.length⟩ (old ++ [o]) (chs ++ [ch])
      (by simp [h1]) (by simp [h2]) (forall₂_append h3 (by simpa using hcc))
      (fun x hx => hfit x (by simp [hx]))
    exact ⟨s', chs', by simp [appendLoop, hch, hw, hov, g1], g2, g3, by simpa using g4⟩

theorem Repr.append {v : IOVec} {l : List O} {m : Nat} (h : Repr cd v l m) (new : List O)
    (hfit : ∀ o ∈ new, ∃ b, cd.enc o = some b ∧ b.length ≤ v.chunk) :
    ∃ v', v.append cd new = .ok (true, v') ∧ v'.chunk = v.chunk ∧
      Repr cd v' (l ++ new.reverse) (l ++ new.reverse).length := by
  obtain ⟨chs, e, f⟩ := h.bytes
  obtain ⟨s', chs', g1, g2, g3, g4⟩ := appendLoop_spec h.pos new.reverse
    ⟨v.stream.vec, v.stream.vec.length⟩ l chs rfl e f (fun o ho => hfit o (by simpa using ho))
  refine ⟨⟨s', v.chunk⟩, by simp [IOVec.append, VecStream.seek_end, g1], rfl, h.pos, ?_, le_refl _,
    chs', g3, g4⟩
  simp only
  rw [g2, g3, flatten_length chs' (forall₂_len g4), g4.length_eq]

/-- `dropLast.set` in terms of `set` and `take`. -/
theorem set_dropLast {E : Type} (l : List E) (n : Nat) (x : E) :
    (l.set n x).take (l.length - 1) = l.dropLast.set n x := by
  rw [List.dropLast_eq_take, List.take_set]

theorem Repr.swapRemove {v : IOVec} {l : List O} {m : Nat} (h : Repr cd v l m) (n : Nat) (o : O)
    (hn : l[n]? = some o) :
    ∃ v' m', v.swapRemove cd n = .ok (some o, v') ∧ v'.chunk = v.chunk ∧
      Repr cd v' (Byoc.swapRemove l n) m' := by
  obtain ⟨chs, e, f⟩ := h.bytes
  have hlen := forall₂_len f
  have hvl := h.vec_length
  have hpos := h.pos
  have hlt : n < l.length := (List.getElem?_eq_some_iff.1 hn).1
  have hcl : chs.length = l.length := f.length_eq.symm
  have h1 := read_chunk f ⟨v.stream.vec, min (n * v.chunk) v.stream.vec.length⟩ e n rfl h.pos
  rw [hn] at h1
  obtain ⟨ch, g1, g2, g3⟩ := h1
  simp only [hvl] at g3
  -- the last element
  obtain ⟨lo, hlo⟩ : ∃ lo, l.getLast? = some lo := by
    cases hl : l.getLast? with
    | none => rw [List.getLast?_eq_none_iff] at hl; subst hl; simp at hlt
    | some x => exact ⟨x, rfl⟩
  have hlo' : l[l.length - 1]? = some lo := by rw [← List.getLast?_eq_getElem?]; exact hlo
  have hsub : l.length * v.chunk - v.chunk = (l.length - 1) * v.chunk := by
    rw [Nat.sub_mul, Nat.one_mul]
  have hge : v.chunk ≤ l.length * v.chunk := Nat.le_mul_of_pos_left _ (by omega)
  have hsr : Byoc.swapRemove l n = l.dropLast.set n lo := by simp [Byoc.swapRemove, hlo]
  simp only [IOVec.swapRemove, VecStream.seek_start, VecStream.seek_end, g3, g2.1, Nat.lt_irrefl,
    if_false, g2.dec, Res.unwrap_some, Res.ok_bind, Res.pure_eq, hvl, hsub]
  rw [if_neg (by omega)]
  by_cases hlast : n = l.length - 1
  · -- nothing to move
    rw [if_neg (by rw [hlast]; omega)]
    refine ⟨_, l.length - 1, rfl, rfl, h.pos, ?_, ?_, chs.take (l.length - 1), ?_, ?_⟩
    · simp only [VecStream.resize]
      rw [if_pos (by omega)]
    · rw [hsr]; simp
    · simp only [VecStream.resize, VecStream.resizeVec]
      rw [if_pos (by omega), e, flatten_take chs hlen]
    · simp only
      rw [hsr, hlast]
      have : l.dropLast.set (l.length - 1) lo = l.dropLast := by
        rw [List.set_eq_of_length_le (by simp)]
      rw [this, List.dropLast_eq_take]
      exact forall₂_take f _
  · have hlt2 : n < l.length - 1 := by omega
    have hmul : n * v.chunk < (l.length - 1) * v.chunk := Nat.mul_lt_mul_of_pos_right hlt2 h.pos
    rw [if_pos hmul]
    have h2 := read_chunk f
      ⟨v.stream.vec, min ((l.length - 1) * v.chunk) (l.length * v.chunk)⟩ e (l.length - 1)
      (by simp [hvl]) h.pos
    rw [hlo'] at h2
    obtain ⟨lch, k1, k2, k3⟩ := h2
    simp only at k3
    simp only [k3, k2.1, Nat.lt_irrefl, if_false]
    rw [VecStream.write_spec _ _ (by simp only [hvl]; omega)]
    simp only [Res.ok_bind]
    have hmin : min (n * v.chunk) (l.length * v.chunk) = n * v.chunk := by
      apply Nat.min_eq_left; exact Nat.mul_le_mul_right _ (by omega)
    have hov : VecStream.overwrite v.stream.vec (n * v.chunk) lch = (chs.set n lch).flatten := by
      rw [e, overwrite_flatten chs hlen n lch (by rw [k2.1]) ch g1]
      congr 2
      rw [List.drop_of_length_le (by rw [k2.1, g2.1]), List.append_nil]
    have hsetlen : ∀ x ∈ chs.set n lch, x.length = v.chunk := by
      intro x hx
      rcases List.mem_or_eq_of_mem_set hx with hx | rfl
      · exact hlen x hx
      · exact k2.1
    simp only [hvl, hmin, hov, k2.1]
    refine ⟨_, n + 1, rfl, rfl, h.pos, ?_, ?_, chs.dropLast.set n lch, ?_, ?_⟩
    · simp only [VecStream.resize]
      have : (n + 1) * v.chunk ≤ (l.length - 1) * v.chunk := Nat.mul_le_mul_right _ hlt2
      rw [Nat.succ_mul] at this
      rw [if_neg (by omega), Nat.succ_mul]
    · rw [hsr]; simp; omega
    · simp only [VecStream.resize, VecStream.resizeVec]
      rw [if_pos (by
        rw [flatten_length _ hsetlen, List.length_set, hcl]
        exact Nat.mul_le_mul_right _ (by omega)), flatten_take _ hsetlen, ← hcl, set_dropLast]
    · rw [hsr]
      simp only
      rw [List.dropLast_eq_take, List.dropLast_eq_take, hcl]
      exact forall₂_set (forall₂_take f _) n lo lch k2

theorem Repr.writeBack {v : IOVec} {l : List O} {m : Nat} (h : Repr cd v l m) (n : Nat) (o : O)
    (hn : n < l.length) (hfit : ∃ b, cd.enc o = some b ∧ b.length ≤ v.chunk) :
    ∃ v', v.writeBack cd n o = .ok v' ∧ v'.chunk = v.chunk ∧ Repr cd v' (l.set n o) m := by
  obtain ⟨chs, e, f⟩ := h.bytes
  obtain ⟨b, hb, hbl⟩ := hfit
  have hlen := forall₂_len f
  have hvl := h.vec_length
  obtain ⟨ch, g1, g2⟩ := forall₂_get f n l[n] (List.getElem?_eq_getElem hn)
  have hmul : n * v.chunk ≤ l.length * v.chunk := Nat.mul_le_mul_right _ (by omega)
  have hov : VecStream.overwrite v.stream.vec (n * v.chunk) b =
      (chs.set n (b ++ ch.drop b.length)).flatten := by
    rw [e, overwrite_flatten chs hlen n b hbl ch g1]
  refine ⟨⟨⟨(chs.set n (b ++ ch.drop b.length)).flatten, v.stream.pos⟩, v.chunk⟩, ?_, rfl, h.pos,
    h.cursor, by simpa using h.cursor_le, _, rfl, forall₂_set f n o _ ⟨?_, b, _, hb, rfl⟩⟩
  · simp only [IOVec.writeBack, VecStream.seek_start, hb, Res.unwrap_some, Res.ok_bind]
    rw [VecStream.write_spec _ _ (by simp only [hvl]; omega)]
    simp only [Res.ok_bind, hvl, Nat.min_eq_left hmul, hov, Res.pure_eq]
  · rw [List.length_append, List.length_drop, g2.1]; omega

theorem Repr.new {c : Nat} (hc : 0 < c) : Repr cd ⟨VecStream.new, c⟩ [] 0 :=
  ⟨hc, by simp [VecStream.new], by simp, [], rfl, List.Forall₂.nil⟩

end IOVec
end Byoc
