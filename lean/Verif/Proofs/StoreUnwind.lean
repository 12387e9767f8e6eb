import Verif.Model.StoreUnwind
import Verif.Proofs.UnwindKept
import Verif.Proofs.ByteStreamOps

/-! # Panics of the user's functions in `Stream` and `Compressed` -/

set_option linter.unusedSectionVars false
set_option linter.unusedVariables false
set_option linter.unusedSimpArgs false

namespace Byoc.Unwind

open M

variable {K V : Type}

theorem M.res_useCell {σ : Type} (f : V → V) (half : Nat → V → V) (x : V) (save : V → σ → Res σ) (s : σ) :
    (useCell f half x save).res s = .ok (f x, s) := rfl

theorem M.esc_useCell {σ : Type} {f : V → V} {half : Nat → V → V} {x : V} {save : V → σ → Res σ} {s : σ}
    {E : σ → Prop} (h : E s) (hs : ∀ n s', save (half n x) s = .ok s' → E s') :
    (useCell f half x save).Esc s E := by
  intro w w' s' hr
  unfold useCell at hr
  simp only at hr
  split at hr
  · simp at hr
  · simp at hr
  · rename_i n w1
    simp only [Prod.mk.injEq, true_and] at hr
    obtain ⟨-, hr⟩ := hr
    split at hr
    · rename_i s1 h1
      exact hr ▸ hs n s1 h1
    · exact hr ▸ h

/-! ## Compressed -/

section Compressed

variable (z : Lz4) (cd : VecCodec (K × V))

theorem compressedRewrite_res (l : List (K × V)) (c : Compressed) :
    (compressedRewrite z cd l).res c = (c.rewrite z cd l >>= fun c' => .ok ((), c')) := by
  simp only [compressedRewrite, res_withState, res_bind, res_user, Res.ok_bind, res_ofRes]
  cases c.rewrite z cd l <;> rfl

theorem compressedRewrite_esc (l : List (K × V)) (c : Compressed) :
    (compressedRewrite z cd l).Esc c (· = c) :=
  esc_withState (esc_user_bind rfl (esc_ofRes_bind rfl fun _ _ => esc_set _ _ _))

theorem compressedRewrite_bind {α : Type} {l : List (K × V)} {c : Compressed} {a : α} :
    (compressedRewrite z cd l >>= fun _ => (pure a : M Compressed α)).Esc c (· = c) :=
  esc_bind (compressedRewrite_esc z cd l c) fun _ _ _ => esc_pure _ _ _

theorem compressedTake_res [DecidableEq K] (k : K) (s : Compressed) :
    (compressedTake z cd k).res s = Compressed.take z cd s k := by
  unfold compressedTake Compressed.take
  simp only [res_withState, res_bind, res_user, Res.ok_bind]
  cases Compressed.read z cd s with
  | none => rfl
  | some l =>
    simp only
    cases hf : findKey l k with
    | none => rfl
    | some i =>
      simp only [res_bind, res_ofRes, compressedRewrite_res]
      cases hu : Res.unwrap l[i]? with
      | panic => rfl
      | ok e =>
        simp only [Res.ok_bind]
        cases hw : s.rewrite z cd (swapRemove l i) with
        | panic => rfl
        | ok c => rfl

theorem compressedTakeMultiple_res [LinearOrder K] (ks : List K) (s : Compressed) :
    (compressedTakeMultiple z cd ks).res s =
      (Compressed.takeMultiple z cd s ks >>= fun r => .ok ((r.1, r.2.1), r.2.2)) := by
  unfold compressedTakeMultiple Compressed.takeMultiple
  simp only [res_withState, res_bind, res_user, Res.ok_bind]
  cases Compressed.read z cd s with
  | none => rfl
  | some l =>
    simp only [res_bind, res_user, Res.ok_bind, res_ofRes]
    cases h1 : Compressed.removeIdxs (List.map Prod.fst (Compressed.matchesOf (sortKeys ks) 0 l)).reverse l with
    | panic => rfl
    | ok p =>
      obtain ⟨out, l'⟩ := p
      simp only [res_bind, Res.ok_bind, res_ofRes]
      cases h2 : Compressed.removeIdxs
          (List.insertionSort (· ≤ ·) (List.map Prod.snd (Compressed.matchesOf (sortKeys ks) 0 l))).reverse
          (sortKeys ks) with
      | panic => rfl
      | ok q =>
        obtain ⟨o2, keys⟩ := q
        simp only [Res.ok_bind]
        split
        · rfl
        · simp only [res_bind, compressedRewrite_res]
          cases hw : s.rewrite z cd l' with
          | panic => rfl
          | ok c => rfl

theorem compressedPop_res (srt : Sorter (K × V)) (n : Nat) (s : Compressed) :
    (compressedPop z cd srt n).res s = Compressed.pop z cd srt s n := by
  unfold compressedPop Compressed.pop
  simp only [res_withState, res_bind, res_user, Res.ok_bind]
  cases Compressed.read z cd s with
  | none => rfl
  | some l =>
    simp only
    split
    · rfl
    · simp only [res_bind, res_user, Res.ok_bind]
      split
      · rfl
      · simp only [res_bind, compressedRewrite_res]
        cases hw : s.rewrite z cd _ with
        | panic => rfl
        | ok c => rfl

theorem compressedPush_res (srtU : Sorter (K × V)) (l : List (K × V)) (s : Compressed) :
    (compressedPush z cd srtU l).res s = Compressed.push z cd srtU s l := by
  unfold compressedPush Compressed.push
  simp only [res_withState]
  cases Compressed.readBytes z s with
  | none => rfl
  | some bytes =>
    simp only [res_bind, res_user, Res.ok_bind]
    cases (if bytes = [] then some [] else cd.dec bytes) with
    | none => rfl
    | some vec =>
      simp only [res_bind, res_user, Res.ok_bind]
      cases cd.encode l with
      | none => rfl
      | some eb =>
        simp only [res_bind, res_user, Res.ok_bind, res_ofRes]
        cases Res.sub s.capacity bytes.length with
        | panic => rfl
        | ok room =>
          simp only [res_bind, res_user, Res.ok_bind]
          split
          · simp only [res_bind, compressedRewrite_res]
            cases hw : s.rewrite z cd _ with
            | panic => rfl
            | ok c => rfl
          · split
            · simp only [res_bind, compressedRewrite_res]
              cases hw : s.rewrite z cd _ with
              | panic => rfl
              | ok c => rfl
            · simp only [res_bind, compressedRewrite_res]
              cases hw : s.rewrite z cd _ with
              | panic => rfl
              | ok c => rfl

theorem compressedFlush_res [LinearOrder K] (srt srtU : Sorter (K × V)) (s : Compressed) :
    (compressed z cd srt srtU).flush.res s = Compressed.flush z cd s := by
  show M.res (withState _) s = _
  unfold Compressed.flush
  simp only [res_withState, res_bind, res_user, Res.ok_bind]
  cases Compressed.read z cd s <;> rfl

theorem compressed_agrees [LinearOrder K] (srt srtU : Sorter (K × V)) :
    Agrees (Byoc.compressed z cd srt srtU) (compressed z cd srt srtU) where
  contains s k := rfl
  take s k := compressedTake_res z cd k s
  takeMultiple s ks := compressedTakeMultiple_res z cd ks s
  pop s n := compressedPop_res z cd srt n s
  push s l := compressedPush_res z cd srtU l s
  flush s := compressedFlush_res z cd srt srtU s

theorem compressedGet_res [DecidableEq K] (k : K) (t : V → V) (c : Compressed) :
    (compressedGet z cd k).res c = c.get z cd k t := by
  unfold compressedGet Compressed.get
  simp only [res_withState, res_bind, res_user, Res.ok_bind]
  cases Compressed.read z cd c <;> rfl

theorem compressedGetMut_res [DecidableEq K] (k : K) (f : V → V) (half : Nat → V → V) (c : Compressed) :
    (compressedGetMut z cd k f half).res c = c.getMut z cd k f := by
  unfold compressedGetMut Compressed.getMut
  simp only [res_withState, res_bind, res_user, Res.ok_bind]
  cases Compressed.read z cd c with
  | none => rfl
  | some l =>
    simp only
    cases findKey l k with
    | none => rfl
    | some i =>
      simp only [res_bind, res_ofRes]
      cases hu : Res.unwrap l[i]? with
      | panic => rfl
      | ok e =>
        simp only [Res.ok_bind, res_useCell, res_user, compressedSave]
        cases hw : c.rewrite z cd (l.set i (e.1, f e.2)) with
        | panic => rfl
        | ok c => rfl

/-- A call that panics changes nothing. -/
theorem compressed_esc [LinearOrder K] (srt srtU : Sorter (K × V)) (c : Compressed) :
    (∀ k, ((compressed z cd srt srtU).contains k).Esc c (· = c)) ∧
    (∀ k, ((compressed z cd srt srtU).take k).Esc c (· = c)) ∧
    (∀ ks, ((compressed z cd srt srtU).takeMultiple ks).Esc c (· = c)) ∧
    (∀ n, ((compressed z cd srt srtU).pop n).Esc c (· = c)) ∧
    (∀ l, ((compressed z cd srt srtU).push l).Esc c (· = c)) ∧
    (compressed z cd srt srtU).flush.Esc c (· = c) := by
  refine ⟨fun k => ?_, fun k => ?_, fun ks => ?_, fun n => ?_, fun l => ?_, ?_⟩
  · exact esc_withState (esc_user_bind rfl (esc_pure _ _ _))
  · refine esc_withState (esc_user_bind rfl ?_)
    cases Compressed.read z cd c with
    | none => exact esc_pure _ _ _
    | some l =>
      simp only
      cases findKey l k with
      | none => exact esc_pure _ _ _
      | some i => exact esc_ofRes_bind rfl fun e _ => compressedRewrite_bind z cd
  · refine esc_withState (esc_user_bind rfl ?_)
    cases Compressed.read z cd c with
    | none => exact esc_pure _ _ _
    | some l =>
      refine esc_user_bind rfl (esc_ofRes_bind rfl fun p _ => ?_)
      obtain ⟨out, l'⟩ := p
      refine esc_ofRes_bind rfl fun q _ => ?_
      obtain ⟨o2, keys⟩ := q
      simp only
      split
      · exact esc_pure _ _ _
      · exact compressedRewrite_bind z cd
  · refine esc_withState (esc_user_bind rfl ?_)
    cases Compressed.read z cd c with
    | none => exact esc_pure _ _ _
    | some l =>
      simp only
      split
      · exact esc_pure _ _ _
      · refine esc_user_bind rfl ?_
        split
        · exact esc_set_bind (esc_pure _ _ _)
        · exact compressedRewrite_bind z cd
  · refine esc_withState ?_
    cases Compressed.readBytes z c with
    | none => exact esc_pure _ _ _
    | some bytes =>
      refine esc_user_bind rfl ?_
      cases (if bytes = [] then some [] else cd.dec bytes) with
      | none => exact esc_pure _ _ _
      | some vec =>
        refine esc_user_bind rfl ?_
        cases cd.encode l with
        | none => exact esc_pure _ _ _
        | some eb =>
          refine esc_ofRes_bind rfl fun room _ => esc_user_bind rfl ?_
          split
          · exact compressedRewrite_bind z cd
          · split
            · exact compressedRewrite_bind z cd
            · exact compressedRewrite_bind z cd
  · refine esc_withState (esc_user_bind rfl ?_)
    cases Compressed.read z cd c with
    | none => exact esc_pure _ _ _
    | some l => exact esc_set_bind (esc_pure _ _ _)

theorem compressedGet_esc [DecidableEq K] (k : K) (c : Compressed) : (compressedGet z cd k).Esc c (· = c) := by
  refine esc_withState (esc_user_bind rfl ?_)
  cases Compressed.read z cd c <;> exact esc_pure _ _ _

/-- `get_mut` that panics changes nothing, or writes the value the user left in the cell. -/
theorem compressedGetMut_esc [DecidableEq K] (k : K) (f : V → V) (half : Nat → V → V) (c : Compressed) :
    (compressedGetMut z cd k f half).Esc c fun c' => c' = c ∨
      ∃ n v, c.getMut z cd k (half n) = .ok (some v, c') := by
  refine esc_withState (esc_user_bind (.inl rfl) ?_)
  cases hr : Compressed.read z cd c with
  | none => exact esc_pure _ _ _
  | some l =>
    simp only
    cases hf : findKey l k with
    | none => exact esc_pure _ _ _
    | some i =>
      refine esc_ofRes_bind (.inl rfl) fun e he => esc_bind (esc_useCell (.inl rfl) fun n c' hc' => .inr ?_) ?_
      · refine ⟨n, e.2, ?_⟩
        simp only [compressedSave] at hc'
        simp only [Compressed.getMut, hr, hf, he, Res.ok_bind]
        cases hw : c.rewrite z cd (l.set i (e.1, half n e.2)) with
        | panic => simp [hw] at hc'
        | ok c1 => simp [hw] at hc'; simp [hc']
      · intro v s' h'
        rw [res_useCell] at h'
        cases h'
        exact esc_user_bind (.inl rfl) (esc_ofRes_bind (.inl rfl) fun c' _ => esc_set_bind (esc_pure _ _ _))

end Compressed

/-! ## Stream -/

section Stream

open ByteStream

variable {cd : Codec (K × V)}

theorem streamRemoveAt_res (i j : Nat) (s : ByteStream) :
    (streamRemoveAt cd i j).res s =
      (removeAt cd s.stream i j >>= fun r => .ok (r.1, { s with stream := r.2 })) := by
  unfold streamRemoveAt
  simp only [res_withState, res_bind, res_ofRes]
  unfold removeAt
  cases s.stream[i]? with
  | none => rfl
  | some o =>
    simp only [Res.unwrap_some, Res.ok_bind]
    cases o with
    | none => rfl
    | some v =>
      simp only [Res.unwrap_some, Res.ok_bind, res_bind, res_set, res_user, res_ofRes]
      cases v.swapRemove cd j with
      | panic => rfl
      | ok r => rfl

theorem streamTake_res [DecidableEq K] (k : K) (s : ByteStream) :
    (streamTake cd k).res s = ByteStream.take cd s k := by
  unfold streamTake ByteStream.take
  simp only [res_withState, res_bind, res_user, Res.ok_bind, res_ofRes]
  cases findGo cd k 0 s.stream with
  | panic => rfl
  | ok o =>
    simp only [Res.ok_bind]
    cases o with
    | none => rfl
    | some p =>
      obtain ⟨i, j⟩ := p
      simp only [res_bind, streamRemoveAt_res]
      cases removeAt cd s.stream i j with
      | panic => rfl
      | ok r =>
        obtain ⟨item, st⟩ := r
        cases item <;> rfl

theorem streamRemoveAll_res (ps : List (Nat × Nat)) : ∀ s : ByteStream,
    (streamRemoveAll cd ps).res s =
      (removeAll cd ps s.stream >>= fun r => .ok (r.1, { s with stream := r.2 })) := by
  induction ps with
  | nil => intro s; rfl
  | cons p ps ih =>
    intro s
    obtain ⟨i, j⟩ := p
    unfold streamRemoveAll removeAll
    simp only [res_bind, streamRemoveAt_res]
    cases removeAt cd s.stream i j with
    | panic => rfl
    | ok r =>
      obtain ⟨item, st⟩ := r
      simp only [Res.ok_bind]
      cases item with
      | none => rfl
      | some e =>
        simp only [res_bind, ih]
        cases removeAll cd ps st with
        | panic => rfl
        | ok r => rfl

theorem streamPop_res {R : Type} [LinearOrder R] (rank : V → R) (n : Nat) (s : ByteStream) :
    (streamPop cd rank n).res s = popBy cd rank s n := by
  unfold streamPop popBy
  simp only [res_withState, res_bind, res_user, Res.ok_bind, res_ofRes]
  cases ByteStream.allSlots cd rank 0 s.stream with
  | panic => rfl
  | ok slots =>
    simp only [Res.ok_bind, res_bind, res_ofRes]
    cases (KMin.new n : KMin (Slot R)).pushAll slots with
    | panic => rfl
    | ok m =>
      simp only [Res.ok_bind, streamRemoveAll_res]
      cases removeAll cd _ s.stream with
      | panic => rfl
      | ok r => rfl

theorem streamPushLoop_res (l : List (K × V)) : ∀ (t : Nat) (s : ByteStream),
    (streamPushLoop cd l t).res s = pushLoop cd l t s := by
  induction l with
  | nil => intro t s; rfl
  | cons e l ih =>
    intro t s
    unfold streamPushLoop pushLoop
    simp only [res_withState, res_bind, res_user, Res.ok_bind]
    cases cd.enc e with
    | none =>
      simp only [res_bind, ih]
      cases pushLoop cd l t s <;> rfl
    | some b =>
      simp only [res_bind, res_ofRes]
      cases chunkSize b.length with
      | panic => rfl
      | ok p =>
        obtain ⟨i, c⟩ := p
        simp only [Res.ok_bind]
        split
        · simp only [res_bind, ih]
          cases pushLoop cd l t s <;> rfl
        · simp only [res_bind, res_ofRes]
          cases Res.unwrap s.stream[i]? with
          | panic => rfl
          | ok o =>
            simp only [Res.ok_bind, res_bind, res_set, res_user, res_ofRes]
            cases (o.getD ⟨VecStream.new, c⟩).append cd [e] with
            | panic => rfl
            | ok r =>
              obtain ⟨ok, v⟩ := r
              simp only [Res.ok_bind, res_bind, res_set]
              cases ok with
              | false => rfl
              | true => simp only [if_true, ih]

theorem streamFlush_res {R : Type} [LinearOrder K] [LinearOrder R] (rank : V → R) (s : ByteStream) :
    (stream cd rank).flush.res s = ByteStream.flush cd s := by
  show M.res (withState _) s = _
  unfold ByteStream.flush
  simp only [res_withState, res_bind, res_set, res_user, Res.ok_bind, res_ofRes]
  cases flushGo cd s.stream <;> rfl

theorem stream_agrees {R : Type} [LinearOrder K] [LinearOrder R] (rank : V → R) :
    Agrees (byteStreamBy cd rank) (stream cd rank) where
  contains s k := by
    have h : ∀ s : ByteStream, ((stream cd rank).contains k).res s =
        (containsGo cd k s.stream >>= fun b => Res.ok (b, s)) := by
      intro s
      show M.res (withState _) s = _
      simp only [res_withState, res_bind, res_user, Res.ok_bind, res_ofRes]
    exact h s
  take s k := streamTake_res k s
  takeMultiple s ks := by
    have h : ∀ s : ByteStream, ((stream cd rank).takeMultiple ks).res s =
        (ByteStream.takeMultiple cd s ks >>= fun r => Res.ok ((r.1, r.2.1), r.2.2)) := by
      intro s
      show M.res (withState _) s = _
      simp only [res_withState, res_bind, res_user, Res.ok_bind, res_ofRes, ByteStream.takeMultiple]
      cases takeMultipleGo cd s.stream (sortKeys ks) <;> rfl
    exact h s
  pop s n := streamPop_res rank n s
  push s l := streamPushLoop_res l s.size s
  flush s := streamFlush_res rank s

theorem streamGet_res [DecidableEq K] (k : K) (t : V → V) (s : ByteStream) (h : Inv cd s) :
    (streamGet cd k).res s = s.get cd k t := by
  obtain ⟨o, h1, -⟩ := get_spec s h k id
  obtain ⟨o', h2, -⟩ := get_spec s h k t
  have : s.get cd k t = s.get cd k id := rfl
  rw [this, h1]
  unfold streamGet
  simp only [res_withState, res_bind, res_user, Res.ok_bind, res_ofRes, h1]
  rfl

theorem streamGetMut_res [DecidableEq K] (k : K) (f : V → V) (half : Nat → V → V) (s : ByteStream) :
    (streamGetMut cd k f half).res s = s.getMut cd k f := by
  unfold streamGetMut ByteStream.getMut
  simp only [res_withState, res_bind, res_user, Res.ok_bind, res_ofRes]
  cases findGo cd k 0 s.stream with
  | panic => rfl
  | ok o =>
    simp only [Res.ok_bind]
    cases o with
    | none => rfl
    | some p =>
      obtain ⟨i, j⟩ := p
      simp only [res_bind, res_ofRes, streamSave]
      cases hs : s.stream[i]? with
      | none => rfl
      | some o =>
        cases o with
        | none => rfl
        | some v =>
          simp only [Res.unwrap_some, Res.ok_bind, items]
          cases v.iter cd with
          | panic => rfl
          | ok es =>
            simp only [Res.ok_bind]
            cases es[j]? with
            | none => rfl
            | some e =>
              simp only [Res.unwrap_some, Res.ok_bind, res_useCell, res_user, hs]
              cases v.writeBack cd j (e.1, f e.2) <;> rfl

/-! ### Panics -/

/-- A stream whose cursor moved to the start of another chunk. -/
theorem Repr_move {O : Type} {cd : Codec O} {v : IOVec} {l : List O} {m n p : Nat}
    (h : IOVec.Repr cd v l m) (hp : p = n * v.chunk) (hn : n ≤ l.length) :
    IOVec.Repr cd { v with stream := ⟨v.stream.vec, p⟩ } l n :=
  ⟨h.pos, hp, hn, h.bytes⟩

/-- What a panic keeps: a valid state with the capacity it had, and the elements that were there (and were
pushed), without the elements `lost`. -/
def StreamKept (cd : Codec (K × V)) (given : List (K × V)) (P : K × V → Prop) (s s' : ByteStream) : Prop :=
  Inv cd s' ∧ s'.capacity = s.capacity ∧
    ∃ lost, (stored cd s' ++ lost).Perm (stored cd s ++ given) ∧ ∀ e ∈ lost, P e

theorem StreamKept.refl {given : List (K × V)} {P : K × V → Prop} {s : ByteStream} (h : Inv cd s)
    (hP : ∀ e ∈ given, P e) : StreamKept cd given P s s :=
  ⟨h, rfl, given, .refl _, hP⟩

theorem streamRemoveAt_esc {i j : Nat} {s : ByteStream} {ls : List (List (K × V))}
    {l : List (K × V)} {e : K × V} (h : Streams cd 0 s.stream ls) (hi : ls[i]? = some l) (hj : l[j]? = some e) :
    (streamRemoveAt cd i j).Esc s fun s' => Streams cd 0 s'.stream ls ∧ s'.capacity = s.capacity := by
  obtain ⟨v, k1, k2, k3, ⟨m, k4⟩, k5⟩ := items_get h hi hj
  unfold streamRemoveAt
  refine esc_withState ?_
  have hlt : j < l.length := (List.getElem?_eq_some_iff.1 hj).1
  rw [k1]
  refine esc_ofRes_bind ⟨h, rfl⟩ fun o ho => ?_
  cases ho
  refine esc_ofRes_bind ⟨h, rfl⟩ fun o ho => ?_
  cases ho
  have hmul : j * v.chunk + v.chunk ≤ v.stream.vec.length := by
    rw [k4.vec_length, ← Nat.succ_mul]
    exact Nat.mul_le_mul_right _ hlt
  have hset : Streams cd 0 (s.stream.set i (some
      { v with stream := (((v.stream.seek (.start (j * v.chunk))).2).read v.chunk).2 })) ls := by
    have := h.set i (some { v with stream := (((v.stream.seek (.start (j * v.chunk))).2).read v.chunk).2 }) l (by
      refine ⟨by rw [Nat.zero_add]; exact k3, ⟨j + 1, ?_⟩, by rw [Nat.zero_add]; exact k5⟩
      rw [VecStream.seek_start]
      simp only
      obtain ⟨p, hp1, hp2, hp3, -⟩ := VecStream.read_spec ⟨v.stream.vec, min (j * v.chunk) v.stream.vec.length⟩
        v.chunk (by simp)
      rw [hp1]
      refine Repr_move k4 ?_ (by omega)
      rw [hp3]
      simp only
      rw [Nat.succ_mul]
      omega)
    obtain ⟨hi1, hi2⟩ := List.getElem?_eq_some_iff.1 hi
    rwa [← hi2, List.set_getElem_self hi1] at this
  refine esc_set_bind (esc_user_bind ⟨hset, rfl⟩ (esc_ofRes_bind ⟨hset, rfl⟩ fun r _ => ?_))
  exact esc_set_bind (esc_pure _ _ _)

/-- `streamRemoveAll` that panics has removed a first part of the elements. -/
theorem streamRemoveAll_esc (ps : List (Nat × Nat)) : ∀ (s : ByteStream) (ls : List (List (K × V))),
    Streams cd 0 s.stream ls → ps.Pairwise (fun p q => plt q p) → (∀ p ∈ ps, (at' ls p).isSome) →
    (streamRemoveAll cd ps).Esc s fun s' => ∃ d ls', Streams cd 0 s'.stream ls' ∧ ls'.length = ls.length ∧
      s'.capacity = s.capacity ∧ (d ++ ls'.flatten).Perm ls.flatten ∧ d.map some <+: ps.map (at' ls) := by
  induction ps with
  | nil => intro s ls _ _ _; exact esc_pure _ _ _
  | cons p ps ih =>
    intro s ls h hp hs
    obtain ⟨e, he⟩ := Option.isSome_iff_exists.1 (hs p (by simp))
    obtain ⟨l, hl, hle⟩ := at_some he
    obtain ⟨i, j⟩ := p
    unfold streamRemoveAll
    refine esc_bind ((streamRemoveAt_esc h hl hle).mono fun s' hs' =>
      ⟨[], ls, hs'.1, rfl, hs'.2, by simp, by simp⟩) fun o s1 h1 => ?_
    rw [streamRemoveAt_res] at h1
    obtain ⟨st', r1, r2⟩ := h.removeAt i j l e hl hle
    rw [r1] at h1
    simp only [Res.ok_bind, Res.ok.injEq, Prod.mk.injEq] at h1
    obtain ⟨rfl, rfl⟩ := h1
    rw [List.pairwise_cons] at hp
    have hat : ∀ q ∈ ps, at' (ls.set i (Byoc.swapRemove l j)) q = at' ls q := fun q hq =>
      at_set_lt hl hle (hp.1 q hq)
    have ih' := ih { s with stream := st' } _ r2 hp.2 fun q hq => by
      rw [hat q hq]; exact hs q (by simp [hq])
    refine esc_bind (ih'.mono fun s' hs' => ?_) fun _ _ _ => esc_pure _ _ _
    obtain ⟨d, ls', a1, a2, a3, a4, a5⟩ := hs'
    refine ⟨e :: d, ls', a1, by rw [a2]; simp, a3, ?_, ?_⟩
    · have hf := flatten_set_perm (d := []) (d' := [e]) (l' := Byoc.swapRemove l j) hl
        (by simpa using (swapRemove_perm hle).symm)
      simp only [List.nil_append, List.singleton_append] at hf
      exact (a4.cons e).trans hf.symm
    · rw [List.map_cons, List.map_cons, he]
      rw [List.map_congr_left hat] at a5
      exact (List.cons_prefix_cons).2 ⟨rfl, a5⟩

/-- The places `pop` empties are distinct, in order and not empty. -/
theorem pop_places {R : Type} [LinearOrder R] (rank : V → R) {st : List (Option IOVec)} {ls : List (List (K × V))}
    (h : Streams cd 0 st ls) (n : Nat) {S : List (Slot R × Nat)} {m : KMin (Slot R)}
    (hS : ByteStream.allSlots cd rank 0 st = .ok S) (hm : (KMin.new n : KMin (Slot R)).pushAll S = .ok m) :
    (descending (m.items.map fun x => ofLex (ofLex x.1).2)).Pairwise (fun p q => plt q p) ∧
    ∀ p ∈ descending (m.items.map fun x => ofLex (ofLex x.1).2), (at' ls p).isSome := by
  obtain ⟨S', h1, h2, h3, h4⟩ := h.allSlots rank
  rw [h1] at hS; cases hS
  simp only [Nat.zero_add] at h4
  obtain ⟨m', k1, k2, k3, -⟩ := KMin.pushAll_spec S (KMin.new n : KMin (Slot R)) [] (KMin.new_inv n)
  rw [k1] at hm; cases hm
  simp only [List.nil_append] at k2
  have hsub := k2.sub
  have hmn : m.items.Nodup :=
    k2.sorted.imp (fun {a b} (hlt : KMin.lt a b) (he : a = b) =>
      KMin.lt_irrefl a (by rw [← he] at hlt; exact hlt))
  have hinj : ∀ x ∈ S, ∀ y ∈ S, place x = place y → x = y := by
    intro x hx y hy hxy
    obtain ⟨a, j, l, e, p1, p2, p3⟩ := h4 x hx
    obtain ⟨a', j', l', e', q1, q2, q3⟩ := h4 y hy
    rw [p3, q3] at hxy
    simp only [place, ofLex_toLex, Prod.mk.injEq] at hxy
    obtain ⟨rfl, rfl⟩ := hxy
    rw [p1] at q1; cases q1
    rw [p2] at q2; cases q2
    rw [p3, q3]
  have hpn : (m.items.map place).Nodup := by
    rw [List.nodup_map_iff_inj_on hmn]
    intro x hx y hy hxy
    exact hinj x (hsub x hx) y (hsub y hy) hxy
  obtain ⟨d1, d2⟩ := descending_spec _ hpn
  refine ⟨d2, fun p hp => ?_⟩
  obtain ⟨x, hx, rfl⟩ := List.mem_map.1 (d1.subset hp)
  obtain ⟨a, j, l, e, p1, p2, p3⟩ := h4 x (hsub x hx)
  simp [p3, place, at', p1, p2]

/-- `pop` that panics has removed some of the elements it would have returned, and they are lost. -/
theorem streamPop_esc {R : Type} [LinearOrder R] (rank : V → R) (n : Nat) (s : ByteStream) (h : Inv cd s) :
    (streamPop cd rank n).Esc s fun s' => Inv cd s' ∧ s'.capacity = s.capacity ∧
      ∃ lost, (stored cd s' ++ lost).Perm (stored cd s) ∧
        ∃ out t, popBy cd rank s n = .ok (out, t) ∧ lost <+: out := by
  have h0 := h
  obtain ⟨out, t, hpop, -⟩ := popBy_spec rank s h n
  have hrefl : Inv cd s ∧ s.capacity = s.capacity ∧ ∃ lost, (stored cd s ++ lost).Perm (stored cd s) ∧
        ∃ out t, popBy cd rank s n = .ok (out, t) ∧ lost <+: out :=
    ⟨h, rfl, [], by simp, out, t, hpop, List.nil_prefix⟩
  obtain ⟨ls, h1, hlen, hcap⟩ := h
  obtain ⟨S, s1, s2, s3, s4⟩ := h1.allSlots rank
  have hpop' := hpop
  unfold popBy at hpop'
  unfold streamPop
  refine esc_withState (esc_user_bind hrefl (esc_ofRes_bind hrefl fun S hS => esc_ofRes_bind hrefl fun m hm => ?_))
  rw [hS, Res.ok_bind, hm, Res.ok_bind] at hpop'
  obtain ⟨d1, d2⟩ := pop_places rank h1 n hS hm
  obtain ⟨out', st', ls', g1, -, -, -, g5⟩ := Streams.removeAll _ s.stream ls h1 d1 d2
  simp only [g1] at hpop'
  simp only [Res.ok_bind, Res.pure_eq, Res.ok.injEq, Prod.mk.injEq] at hpop'
  obtain ⟨rfl, -⟩ := hpop'
  refine (streamRemoveAll_esc _ s ls h1 d1 d2).mono fun s' hs' => ?_
  obtain ⟨d, ls'', a1, a2, a3, a4, a5⟩ := hs'
  have ht := total_perm (csz cd) a4
  rw [total_append] at ht
  refine ⟨⟨ls'', a1, a2.trans hlen, by omega⟩, a3, d, ?_, out', t, hpop, ?_⟩
  · rw [stored_eq a1, stored_eq h1]
    exact List.perm_append_comm.trans a4
  · rw [← g5] at a5
    exact (List.prefix_map_iff_of_injective (Option.some_injective _)).1 a5

theorem streamTake_esc [DecidableEq K] (k : K) (s : ByteStream) (h : Inv cd s) :
    (streamTake cd k).Esc s fun s' => Inv cd s' ∧ s'.capacity = s.capacity ∧ stored cd s' = stored cd s := by
  have h0 := h
  obtain ⟨ls, h1, hlen, hcap⟩ := h
  unfold streamTake
  refine esc_withState (esc_user_bind ⟨h0, rfl, rfl⟩ ?_)
  rcases h1.find k with ⟨f1, -⟩ | ⟨a, j, l, e, f1, f2, f3, f4⟩
  · rw [f1]
    refine esc_ofRes_bind ⟨h0, rfl, rfl⟩ fun o ho => ?_
    cases ho
    exact esc_pure _ _ _
  · rw [f1, Nat.zero_add]
    refine esc_ofRes_bind ⟨h0, rfl, rfl⟩ fun o ho => ?_
    cases ho
    refine esc_bind ((streamRemoveAt_esc h1 f2 f3).mono fun s' hs' =>
      ⟨⟨ls, hs'.1, hlen, by rw [hs'.2]; exact hcap⟩, hs'.2, by rw [stored_eq hs'.1, stored_eq h1]⟩) fun o s1 hs1 => ?_
    rw [streamRemoveAt_res] at hs1
    obtain ⟨st', r1, r2⟩ := h1.removeAt a j l e f2 f3
    rw [r1] at hs1
    simp only [Res.ok_bind, Res.ok.injEq, Prod.mk.injEq] at hs1
    obtain ⟨rfl, -⟩ := hs1
    exact esc_bind (esc_ofRes_ok (a := e) rfl) fun _ _ _ => esc_pure _ _ _

/-- `push` that panics has pushed some of the elements; the others are lost. -/
theorem streamPushLoop_esc (hsmall : Small cd) (l : List (K × V)) : ∀ (t : Nat) (s : ByteStream)
    (ls : List (List (K × V))), Streams cd 0 s.stream ls → ls.length = 64 →
    t = total (csz cd) ls.flatten → t ≤ s.capacity →
    (streamPushLoop cd l t).Esc s fun s' => Inv cd s' ∧ s'.capacity = s.capacity ∧
      ∃ put lost, (stored cd s').Perm (stored cd s ++ put) ∧ (put ++ lost).Perm l := by
  induction l with
  | nil => intro t s ls h1 h2 h3 h4; exact esc_pure _ _ _
  | cons e l ih =>
    intro t s ls h1 h2 h3 h4
    have hrefl : Inv cd s ∧ s.capacity = s.capacity ∧
      ∃ put lost, (stored cd s).Perm (stored cd s ++ put) ∧ (put ++ lost).Perm (e :: l) :=
      ⟨⟨ls, h1, h2, h3 ▸ h4⟩, rfl, [], e :: l, by simp, by simp⟩
    have reject : (streamPushLoop cd l t >>= fun out => (pure (e :: out) : M ByteStream (List (K × V)))).Esc s
        fun s' => Inv cd s' ∧ s'.capacity = s.capacity ∧
          ∃ put lost, (stored cd s').Perm (stored cd s ++ put) ∧ (put ++ lost).Perm (e :: l) := by
      refine esc_bind ((ih t s ls h1 h2 h3 h4).mono fun s' hs' => ?_) fun _ _ _ => esc_pure _ _ _
      obtain ⟨a1, a2, put, lost, a3, a4⟩ := hs'
      refine ⟨a1, a2, put, e :: lost, a3, ?_⟩
      perms [a4]
    unfold streamPushLoop
    refine esc_withState (esc_user_bind hrefl ?_)
    cases henc : cd.enc e with
    | none => simp only; exact reject
    | some b =>
      simp only
      obtain ⟨i, c1, c2, c3⟩ := chunkSize_spec b.length (hsmall e b henc)
      have hcls : Class cd i e := ⟨b, henc, c1⟩
      have hsz := hcls.csz
      rw [c1]
      refine esc_ofRes_bind hrefl fun p hp => ?_
      cases hp
      simp only
      by_cases hfull : 2 ^ i + t > s.capacity
      · rw [if_pos hfull]; exact reject
      · rw [if_neg hfull]
        obtain ⟨lst, hl⟩ : ∃ lst, ls[i]? = some lst := ⟨_, List.getElem?_eq_getElem (by omega)⟩
        obtain ⟨o, k1, k2⟩ := h1.get i lst hl
        rw [Nat.zero_add] at k2
        rw [k1]
        refine esc_ofRes_bind hrefl fun o' ho' => ?_
        cases ho'
        have good : Good cd i (some { (o.getD ⟨VecStream.new, 2 ^ i⟩) with
            stream := ((o.getD ⟨VecStream.new, 2 ^ i⟩).stream.seek (.end 0)).2 }) lst := by
          cases o with
          | none =>
            simp only [Good] at k2; subst k2
            refine ⟨rfl, ⟨0, Repr_move (IOVec.Repr.new (cd := cd) (Nat.two_pow_pos i)) (n := 0) ?_ (by simp)⟩, by simp⟩
            simp [VecStream.seek, VecStream.new]
          | some v =>
            obtain ⟨q1, ⟨m, q2⟩, q3⟩ := k2
            refine ⟨q1, ⟨lst.length, ?_⟩, q3⟩
            simp only [Option.getD_some]
            rw [VecStream.seek_end]
            exact Repr_move q2 q2.vec_length (le_refl _)
        have hmove := h1.set i _ lst (by rw [Nat.zero_add]; exact good)
        obtain ⟨hl1, hl2⟩ := List.getElem?_eq_some_iff.1 hl
        rw [← hl2, List.set_getElem_self hl1] at hmove
        have hrefl' : Inv cd { s with stream := s.stream.set i (some { (o.getD ⟨VecStream.new, 2 ^ i⟩) with
            stream := ((o.getD ⟨VecStream.new, 2 ^ i⟩).stream.seek (.end 0)).2 }) } ∧ s.capacity = s.capacity ∧
            ∃ put lost, (stored cd { s with stream := s.stream.set i (some { (o.getD ⟨VecStream.new, 2 ^ i⟩) with
              stream := ((o.getD ⟨VecStream.new, 2 ^ i⟩).stream.seek (.end 0)).2 }) }).Perm (stored cd s ++ put) ∧
              (put ++ lost).Perm (e :: l) := by
          refine ⟨⟨ls, hmove, h2, h3 ▸ h4⟩, rfl, [], e :: l, ?_, by simp⟩
          rw [stored_eq hmove, stored_eq h1, List.append_nil]
        refine esc_set_bind (esc_user_bind hrefl' ?_)
        have key : ∃ v', (o.getD ⟨VecStream.new, 2 ^ i⟩).append cd [e] = .ok (true, v') ∧
            Good cd i (some v') (lst ++ [e]) := by
          cases o with
          | none =>
            simp only [Good] at k2; subst k2
            obtain ⟨v', a1, a2, a3⟩ := (IOVec.Repr.new (cd := cd) (Nat.two_pow_pos i)).append_one e
              ⟨b, henc, c2⟩
            exact ⟨v', a1, a2, ⟨_, a3⟩, by simpa using hcls⟩
          | some v =>
            obtain ⟨q1, ⟨m, q2⟩, q3⟩ := k2
            obtain ⟨v', a1, a2, a3⟩ := q2.append_one e ⟨b, henc, by rw [q1]; exact c2⟩
            refine ⟨v', a1, a2.trans q1, ⟨_, a3⟩, ?_⟩
            intro x hx
            rcases List.mem_append.1 hx with hx | hx
            · exact q3 x hx
            · simp at hx; subst hx; exact hcls
        obtain ⟨v', a1, a2⟩ := key
        rw [a1]
        refine esc_ofRes_bind hrefl' fun r hr => ?_
        cases hr
        refine esc_set_bind ?_
        simp only [if_true]
        have hset := h1.set i (some v') (lst ++ [e]) (by rw [Nat.zero_add]; exact a2)
        have hperm : ([e] ++ ls.flatten).Perm ((ls.set i (lst ++ [e])).flatten) := by
          have := flatten_set_perm (d := [e]) (d' := []) (l' := lst ++ [e]) hl
            (by simpa using (List.perm_append_singleton e lst).symm)
          simpa using this
        have htot : t + 2 ^ i = total (csz cd) (ls.set i (lst ++ [e])).flatten := by
          rw [← total_perm _ hperm, total_append, total_cons, total_nil, hsz, h3]; omega
        refine (ih (t + 2 ^ i) { s with stream := s.stream.set i (some v') } _ hset (by simpa using h2) htot
          (by simp only; omega)).mono fun s' hs' => ?_
        obtain ⟨b1, b2, put, lost, b3, b4⟩ := hs'
        refine ⟨b1, b2, e :: put, lost, ?_, by perms [b4]⟩
        have hst : stored cd { s with stream := s.stream.set i (some v') } = _ := stored_eq hset
        rw [hst] at b3
        rw [stored_eq h1]
        simp only [List.cons_append, List.nil_append] at hperm
        perms [b3, hperm]

theorem streamPush_esc (hsmall : Small cd) (l : List (K × V)) (s : ByteStream) (h : Inv cd s) :
    (withState fun s : ByteStream => streamPushLoop cd l s.size).Esc s fun s' => Inv cd s' ∧ s'.capacity = s.capacity ∧
      ∃ put lost, (stored cd s').Perm (stored cd s ++ put) ∧ (put ++ lost).Perm l := by
  obtain ⟨ls, h1, h2, h3⟩ := h
  have hsz : s.size = total (csz cd) ls.flatten := by rw [ByteStream.size, h1.size]
  exact esc_withState (streamPushLoop_esc hsmall l s.size s ls h1 h2 hsz (by omega))

theorem streamFlush_esc {R : Type} [LinearOrder K] [LinearOrder R] (rank : V → R) (s : ByteStream) (h : Inv cd s) :
    (stream cd rank).flush.Esc s fun s' => Inv cd s' ∧ s'.capacity = s.capacity ∧ stored cd s' = [] := by
  obtain ⟨out, s', g1, g2, g3, g4, -⟩ := flush_spec s h
  unfold ByteStream.flush at g1
  have hend : Inv cd { s with stream := s.stream.map fun _ => none } ∧ s.capacity = s.capacity ∧
      stored cd { s with stream := s.stream.map fun _ => none } = [] := by
    cases hf : flushGo cd s.stream with
    | panic => simp [hf] at g1
    | ok o =>
      simp only [hf, Res.ok_bind, Res.pure_eq, Res.ok.injEq, Prod.mk.injEq] at g1
      obtain ⟨-, rfl⟩ := g1
      exact ⟨g2, rfl, g4⟩
  exact esc_withState (esc_set_bind (esc_user_bind hend (esc_ofRes hend)))

theorem streamContains_esc [DecidableEq K] (k : K) (s : ByteStream) :
    (withState fun s : ByteStream => do user; ofRes (ByteStream.containsGo cd k s.stream) : M ByteStream Bool).Esc s
      (· = s) :=
  esc_withState (esc_user_bind rfl (esc_ofRes rfl))

theorem streamTakeMultiple_esc {R : Type} [LinearOrder K] [LinearOrder R] (rank : V → R) (ks : List K)
    (s : ByteStream) : ((stream cd rank).takeMultiple ks).Esc s (· = s) :=
  esc_withState (esc_user_bind rfl (esc_ofRes_bind rfl fun _ _ => esc_pure _ _ _))

theorem streamGet_esc [DecidableEq K] (k : K) (s : ByteStream) : (streamGet cd k).Esc s (· = s) :=
  esc_withState (esc_user_bind rfl (esc_ofRes_bind rfl fun _ _ => esc_pure _ _ _))

/-- `get_mut` that panics changes nothing, or writes the value the user left in the cell. -/
theorem streamGetMut_esc [DecidableEq K] (k : K) (f : V → V) (half : Nat → V → V) (s : ByteStream) :
    (streamGetMut cd k f half).Esc s fun s' => s' = s ∨ ∃ n v, s.getMut cd k (half n) = .ok (some v, s') := by
  refine esc_withState (esc_user_bind (.inl rfl) (esc_ofRes_bind (.inl rfl) fun o ho => ?_))
  cases o with
  | none => exact esc_pure _ _ _
  | some p =>
    obtain ⟨i, j⟩ := p
    refine esc_ofRes_bind (.inl rfl) fun o2 ho2 => esc_ofRes_bind (.inl rfl) fun es hes =>
      esc_ofRes_bind (.inl rfl) fun e he => esc_bind (esc_useCell (.inl rfl) fun n s' hs' => .inr ?_) ?_
    · refine ⟨n, e.2, ?_⟩
      simp only [streamSave, ho2, Res.ok_bind] at hs'
      simp only [ByteStream.getMut, ho, ho2, Res.ok_bind]
      cases o2 with
      | none => simp [Res.unwrap] at hs'
      | some v =>
        simp only [Res.unwrap_some, Res.ok_bind] at hs' ⊢
        replace hes : v.iter cd = .ok es := hes
        rw [hes, Res.ok_bind, he, Res.ok_bind]
        cases hw : v.writeBack cd j (e.1, half n e.2) with
        | panic => simp [hw] at hs'
        | ok v1 => simp [hw] at hs'; simp [hs']
    · intro v s' h'
      rw [res_useCell] at h'
      cases h'
      exact esc_user_bind (.inl rfl) (esc_ofRes_bind (.inl rfl) fun c' _ => esc_set_bind (esc_pure _ _ _))

end Stream

end Byoc.Unwind
