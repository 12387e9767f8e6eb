import Verif.Proofs.StoreUnwind
import Verif.Model.StreamGet
import Verif.Props.StreamProps
import Verif.Props.CompressedProps
import Verif.Props.UnwindProps

/-!
# C123: `Stream` and `Compressed` when functions of the user panic

The functions of the user are `Serialize`, `Deserialize`, `eq` and `cmp` of keys and values, and what the user does with a
cell.  They panic when they like; the user catches the panics and goes on.
-/

set_option linter.unusedSectionVars false

namespace Byoc
namespace StoreUnwindProps

open Unwind

variable {K V : Type}

/-! ## The specification -/

/-- A call, in the model without panics. -/
def plain (B : Block K V) (G : GetOps B) (s : B.State) : StoreCall K V → Res (StoreAns K V × B.State)
  | .op o => do let r ← B.observe s o; pure (.obs r.1, r.2)
  | .get k => do let r ← G.get s k id; pure (.val r.1, r.2)
  | .getMut k f _ => do let r ← G.getMut s k f; pure (.val r.1, r.2)

/-- Calls, in the model without panics. -/
def plains (B : Block K V) (G : GetOps B) (s : B.State) :
    List (StoreCall K V) → Res (List (StoreAns K V) × B.State)
  | [] => .ok ([], s)
  | c :: l => do
    let r ← plain B G s c
    let rs ← plains B G r.2 l
    pure (r.1 :: rs.1, rs.2)

/-- The second history is the first without the calls that panicked, where the use of the cell of a `get_mut` that panicked
may have written the value the user left there. -/
inductive Undone : List (StoreCall K V × Option (StoreAns K V)) → List (StoreCall K V × StoreAns K V) → Prop
  | nil : Undone [] []
  | returned {l m} (c a) : Undone l m → Undone ((c, some a) :: l) ((c, a) :: m)
  | panicked {l m} (c) : Undone l m → Undone ((c, none) :: l) m
  | half {l m} (k f half n v) : Undone l m →
      Undone ((.getMut k f half, none) :: l) ((.getMut k (half n) half, .val (some v)) :: m)

/-- The elements given to a call. -/
def given : StoreCall K V → List (K × V)
  | .op o => o.given
  | _ => []

/-- The elements handed back by calls. -/
def handed (os : List (Option (StoreAns K V))) : List (K × V) :=
  os.flatMap fun
    | some (.obs r) => r.elements
    | _ => []

/-! ## Calls that return -/

section Generic

variable {B : Block K V} {G : GetOps B} {U : StoreUnwinding B.State K V}

/-- The panicking model without panics is the model used everywhere else. -/
def Same (B : Block K V) (G : GetOps B) (U : StoreUnwinding B.State K V) (s : B.State) : Prop :=
  ∀ c, (storeCall U c).res s = plain B G s c

theorem same (hA : Agrees B U.toUnwinding) (s : B.State) (hg : ∀ k, (U.get k).res s = G.get s k id)
    (hm : ∀ k f half, (U.getMut k f half).res s = G.getMut s k f) : Same B G U s := by
  intro c
  cases c with
  | get k =>
    simp only [storeCall, plain, M.res_bind, hg]
    cases G.get s k id <;> rfl
  | getMut k f half =>
    simp only [storeCall, plain, M.res_bind, hm]
    cases G.getMut s k f <;> rfl
  | op o =>
    cases o with
    | contains k =>
      simp only [storeCall, plain, M.res_bind, hA.contains, Block.observe]
      cases B.contains s k <;> rfl
    | take k =>
      simp only [storeCall, plain, M.res_bind, hA.take, Block.observe]
      cases B.take s k <;> rfl
    | takeMultiple ks =>
      simp only [storeCall, plain, M.res_bind, hA.takeMultiple, Block.observe]
      cases B.takeMultiple s ks <;> rfl
    | pop n =>
      simp only [storeCall, plain, M.res_bind, hA.pop, Block.observe]
      cases B.pop s n <;> rfl
    | push l =>
      simp only [storeCall, plain, M.res_bind, hA.push, Block.observe]
      cases B.push s l <;> rfl
    | flush =>
      simp only [storeCall, plain, M.res_bind, hA.flush, Block.observe]
      cases B.flush s <;> rfl

/-- A call that hands elements back. -/
theorem plain_op {s s' : B.State} {o : Op K V} {out : List (K × V)} (h : B.step s o = .ok (out, s')) :
    ∃ r, plain B G s (.op o) = .ok (.obs r, s') ∧ r.elements = out := by
  rw [Block.step_eq_observe] at h
  simp only [plain]
  cases ho : B.observe s o with
  | panic => rw [ho] at h; cases h
  | ok p =>
    rw [ho] at h
    simp only [Res.ok_bind, Res.pure_eq, Res.ok.injEq, Prod.mk.injEq] at h
    exact ⟨p.1, by simp [h.2], h.1⟩

theorem Same.returns {s s' : B.State} (h : Same B G U s) {c : StoreCall K V} {w w' : Fates} {a : StoreAns K V}
    (hr : (storeCall U c).run w s = (some a, w', s')) : plain B G s c = .ok (a, s') := by
  rw [← h c]; exact M.res_of_run hr

theorem Same.quiet {s s' : B.State} (h : Same B G U s) {c : StoreCall K V} {a : StoreAns K V}
    (hp : plain B G s c = .ok (a, s')) : (storeCall U c).run [] s = (some a, [], s') := by
  rw [← h c] at hp; exact M.run_of_res hp

end Generic

/-- What panics of a call leave, from what they leave of the method. -/
theorem storeCall_esc {S : Type} {U : StoreUnwinding S K V} {s : S} {E : S → Prop} (c : StoreCall K V)
    (h : match c with
      | .op (.contains k) => (U.contains k).Esc s E
      | .op (.take k) => (U.take k).Esc s E
      | .op (.takeMultiple ks) => (U.takeMultiple ks).Esc s E
      | .op (.pop n) => (U.pop n).Esc s E
      | .op (.push l) => (U.push l).Esc s E
      | .op .flush => U.flush.Esc s E
      | .get k => (U.get k).Esc s E
      | .getMut k f half => (U.getMut k f half).Esc s E) : (storeCall U c).Esc s E := by
  cases c with
  | op o => cases o <;> exact M.esc_bind h fun _ _ _ => M.esc_pure _ _ _
  | get k => exact M.esc_bind h fun _ _ _ => M.esc_pure _ _ _
  | getMut k f half => exact M.esc_bind h fun _ _ _ => M.esc_pure _ _ _

/-! ## Compressed -/

section Compressed

variable [LinearOrder K] (z : Lz4) (cd : VecCodec (K × V)) (srt srtU : Sorter (K × V))

theorem compressed_same (c : Compressed) :
    Same (Byoc.compressed z cd srt srtU) (Byoc.compressedGet z cd srt srtU) (compressedU z cd srt srtU) c :=
  same (B := Byoc.compressed z cd srt srtU) (G := Byoc.compressedGet z cd srt srtU)
    (U := compressedU z cd srt srtU) (compressed_agrees z cd srt srtU) c (fun k => compressedGet_res z cd k id c)
    (fun k f half => compressedGetMut_res z cd k f half c)

/-- **C123 (`Compressed`, one call).** Whatever the state: a call that returns does what it does when no function panics;
a call that panics has no effect, except that the use of a cell of `get_mut` that panics may write the value the user left
in the cell. -/
theorem C123_compressed_call (c c' : Compressed) (call : StoreCall K V) (w w' : Fates) (o : Option (StoreAns K V))
    (h : (storeCall (compressedU z cd srt srtU) call).run w c = (o, w', c')) :
    match o with
    | some a => plain (Byoc.compressed z cd srt srtU) (Byoc.compressedGet z cd srt srtU) c call = .ok (a, c')
    | none => c' = c ∨ ∃ k f half n v, call = .getMut k f half ∧
        plain (Byoc.compressed z cd srt srtU) (Byoc.compressedGet z cd srt srtU) c (.getMut k (half n) half) =
          .ok (.val (some v), c') := by
  cases o with
  | some a => exact (compressed_same z cd srt srtU c).returns h
  | none =>
    obtain ⟨e1, e2, e3, e4, e5, e6⟩ := compressed_esc z cd srt srtU c
    refine (storeCall_esc (U := compressedU z cd srt srtU) (s := c) (E := fun c' => c' = c ∨
      ∃ k f half n v, call = .getMut k f half ∧
        plain (Byoc.compressed z cd srt srtU) (Byoc.compressedGet z cd srt srtU) c (.getMut k (half n) half) =
          .ok (.val (some v), c')) call ?_) _ _ _ h
    cases call with
    | op o =>
      cases o with
      | contains k => exact (e1 k).mono fun _ => .inl
      | take k => exact (e2 k).mono fun _ => .inl
      | takeMultiple ks => exact (e3 ks).mono fun _ => .inl
      | pop n => exact (e4 n).mono fun _ => .inl
      | push l => exact (e5 l).mono fun _ => .inl
      | flush => exact e6.mono fun _ => .inl
    | get k => exact (compressedGet_esc z cd k c).mono fun _ => .inl
    | getMut k f half =>
      refine (compressedGetMut_esc z cd k f half c).mono fun s' hs' => hs'.imp id fun ⟨n, v, hv⟩ =>
        ⟨k, f, half, n, v, rfl, ?_⟩
      show (Compressed.getMut z cd c k (half n) >>= _) = _
      rw [hv]; rfl

/-- **C123 (`Compressed`, histories).** A history in which functions of the user panicked is a history without panics: the
one without the calls that panicked (and with the writes the user left in cells).  It ends in the same state, and the calls
that returned returned the same. -/
theorem C123_compressed (l : List (StoreCall K V × Fates)) : ∀ c : Compressed,
    let r := storeCalls (compressedU z cd srt srtU) c l
    ∃ m, Undone ((l.map Prod.fst).zip r.1) m ∧
      plains (Byoc.compressed z cd srt srtU) (Byoc.compressedGet z cd srt srtU) c (m.map Prod.fst) =
        .ok (m.map Prod.snd, r.2) := by
  induction l with
  | nil => intro c; exact ⟨[], .nil, rfl⟩
  | cons x l ih =>
    intro c
    obtain ⟨call, w⟩ := x
    rcases hr : (storeCall (compressedU z cd srt srtU) call).run w c with ⟨o, w', c'⟩
    have h1 := C123_compressed_call z cd srt srtU c c' call w w' o hr
    obtain ⟨m, h2, h3⟩ := ih c'
    simp only [storeCalls, hr, List.map_cons, List.zip_cons_cons]
    have step : ∀ {call a}, plain (Byoc.compressed z cd srt srtU) (Byoc.compressedGet z cd srt srtU) c call =
        .ok (a, c') → plains (Byoc.compressed z cd srt srtU) (Byoc.compressedGet z cd srt srtU) c
          (((call, a) :: m).map Prod.fst) =
        .ok (((call, a) :: m).map Prod.snd, (storeCalls (compressedU z cd srt srtU) c' l).2) := by
      intro call a hp
      simp only [List.map_cons, plains, hp, Res.ok_bind, h3]
      rfl
    cases o with
    | some a => exact ⟨(call, a) :: m, .returned _ _ h2, step h1⟩
    | none =>
      rcases h1 with rfl | ⟨k, f, half, n, v, rfl, hp⟩
      · exact ⟨m, .panicked _ h2, h3⟩
      · exact ⟨_, .half k f half n v h2, step hp⟩

/-- Calls other than `take_multiple` and `get_mut`. -/
def Simple : StoreCall K V → Prop
  | .op (.takeMultiple _) => False
  | .getMut _ _ _ => False
  | _ => True

/-- **C123 (`Compressed`, conservation).** Calls other than `take_multiple` (see C28 and C30) and `get_mut`, some of which
panic because functions of the user do: the container is within its capacity, and what is in it or was handed back is
exactly what was given to the calls that returned. -/
theorem C123_compressed_conserves (hlaw : cd.Law) (n : Nat) (l : List (StoreCall K V × Fates))
    (hops : ∀ c ∈ l, Simple c.1) :
    let B := Byoc.compressed z cd srt srtU
    let r := storeCalls (compressedU z cd srt srtU) (Compressed.new n) l
    B.capacity r.2 = n ∧ B.size r.2 ≤ n ∧
      (B.contents r.2 ++ handed r.1).Perm
        ((l.zip r.1).flatMap fun c => if c.2.isSome then given c.1.1 else []) := by
  intro B r
  have key : ∀ (l : List (StoreCall K V × Fates)), (∀ c ∈ l, Simple c.1) →
      ∀ (c : Compressed) (es : List (K × V)), Compressed.Holds z cd c es →
      ∃ es', Compressed.Holds z cd (storeCalls (compressedU z cd srt srtU) c l).2 es' ∧
        (storeCalls (compressedU z cd srt srtU) c l).2.capacity = c.capacity ∧
        (es' ++ handed (storeCalls (compressedU z cd srt srtU) c l).1).Perm
          (es ++ (l.zip (storeCalls (compressedU z cd srt srtU) c l).1).flatMap
            fun c => if c.2.isSome then given c.1.1 else []) := by
    intro l
    induction l with
    | nil => intro _ c es h; exact ⟨es, h, rfl, by simp [storeCalls, handed]⟩
    | cons x l ih =>
      intro hops c es h
      obtain ⟨call, w⟩ := x
      have ih := ih fun c hc => hops c (by simp [hc])
      have hs : Simple call := hops (call, w) (by simp)
      rcases hr : (storeCall (compressedU z cd srt srtU) call).run w c with ⟨o, w', c'⟩
      have h1 := C123_compressed_call z cd srt srtU c c' call w w' o hr
      have step : ∃ es1, Compressed.Holds z cd c' es1 ∧ c'.capacity = c.capacity ∧
          (es1 ++ handed [o]).Perm (es ++ if o.isSome then given call else []) := by
        cases o with
        | none =>
          rcases h1 with rfl | ⟨_, _, _, _, _, rfl, -⟩
          · exact ⟨es, h, rfl, by simp [handed]⟩
          · exact hs.elim
        | some a =>
          cases call with
          | getMut k f half => exact hs.elim
          | get k =>
            have hg : ∃ v, Compressed.get z cd c k id = .ok (v, c) := by
              unfold Compressed.get
              cases Compressed.read z cd c <;> exact ⟨_, rfl⟩
            obtain ⟨v, hv⟩ := hg
            replace h1 : (Compressed.get z cd c k id >>= _) = _ := h1
            rw [hv] at h1
            injection h1 with h1
            injection h1 with e1 e2
            have : c = c' := e2
            subst this
            subst e1
            exact ⟨es, h, rfl, by simp [handed, given]⟩
          | op op =>
            obtain ⟨out, c1, es1, s1, s2, s3, s4⟩ := CompressedProps.step_single (z := z) (srt := srt) (srtU := srtU)
              hlaw h op (by cases op <;> exact hs)
            obtain ⟨r1, p1, rfl⟩ := plain_op (B := Byoc.compressed z cd srt srtU)
              (G := Byoc.compressedGet z cd srt srtU) s1
            have := h1.symm.trans p1
            injection this with this
            injection this with e1 e2
            subst e1
            have : c1 = c' := e2.symm
            subst this
            exact ⟨es1, s2, s3, by simpa [handed, given] using s4⟩
      obtain ⟨es1, g1, g2, g3⟩ := step
      obtain ⟨es', k1, k2, k3⟩ := ih c' es1 g1
      refine ⟨es', by simpa [storeCalls, hr] using k1, by simpa [storeCalls, hr] using k2.trans g2, ?_⟩
      simp only [storeCalls, hr, List.zip_cons_cons, List.flatMap_cons, handed, List.flatMap_nil,
        List.append_nil] at k3 g3 ⊢
      perms [k3, g3]
  obtain ⟨es, h1, h2, h3⟩ := key l hops (Compressed.new n) [] (CompressedProps.new_holds n)
  have hc : r.2.capacity = n := h2
  refine ⟨hc, ?_, ?_⟩
  · have := h1.bounded
    show Compressed.size z r.2 ≤ n
    rw [← hc]; exact this
  · have he : B.contents r.2 = es := CompressedProps.contents_eq hlaw h1
    rw [he]
    simpa using h3

end Compressed

/-! ## Stream -/

section Stream

open ByteStream StreamProps

variable [LinearOrder K] [LinearOrder V] {cd : Codec (K × V)}

/-- Writing `f v` in place of `v` takes as many bytes. -/
def SameBytes (cd : Codec (K × V)) (f : V → V) : Prop := ∀ k v c, IsChunkOf cd (k, v) c → IsChunkOf cd (k, f v) c

/-- What is written in cells takes as many bytes as what was there (see C26). -/
def WellUsed (cd : Codec (K × V)) : StoreCall K V → Prop
  | .getMut _ f half => SameBytes cd f ∧ ∀ n, SameBytes cd (half n)
  | _ => True

/-- What a call that panics in the state `s` leaves in the `Stream`. -/
def Leaves (cd : Codec (K × V)) (s s' : ByteStream) : StoreCall K V → Prop
  | .op (.take _) => (everything cd s').Perm (everything cd s)
  | .op (.pop m) => ∃ lost out t, (byteStream cd).pop s m = .ok (out, t) ∧ lost <+: out ∧
      (everything cd s' ++ lost).Perm (everything cd s)
  | .op (.push l) => ∃ put lost, (put ++ lost).Perm l ∧ (everything cd s').Perm (everything cd s ++ put)
  | .op .flush => everything cd s' = []
  | .getMut k _ half => s' = s ∨ ∃ n v, plain (byteStream cd) (byteStreamGet cd) s (.getMut k (half n) half) =
      .ok (.val (some v), s')
  | _ => s' = s

theorem SameBytes.sameClass (hsmall : SmallCodec cd) {f : V → V} (hf : SameBytes cd f) : SameClass cd f := by
  intro i k v hc
  obtain ⟨b, h1, h2⟩ := hc
  obtain ⟨j, hj1, hj2, hj3⟩ := isChunkOf_csz hsmall (k, v) (by rw [h1]; simp)
  have hcs : csz cd (k, v) = 2 ^ i := Class.csz ⟨b, h1, h2⟩
  have h3 := hf k v _ hj1
  have hne : cd.enc (k, f v) ≠ none := by
    obtain ⟨b, i, h1, -⟩ := h3
    rw [h1]; simp
  obtain ⟨j', hj1', hj2', hj3'⟩ := isChunkOf_csz hsmall (k, f v) hne
  have := h3.unique hj1'
  rw [hcs, hj2'] at this
  have : i = j' := Nat.pow_right_injective (le_refl 2) this
  rw [this]; exact hj3'

theorem stream_same (s : ByteStream) (h : Inv cd s) :
    Same (byteStream cd) (byteStreamGet cd) (streamU cd (id : V → V)) s :=
  same (B := byteStream cd) (G := byteStreamGet cd) (U := streamU cd (id : V → V))
    (stream_agrees (id : V → V)) s (fun k => streamGet_res k id s h) (fun k f half => streamGetMut_res k f half s)

/-- A call in the model without panics. -/
theorem plain_inv (hsmall : SmallCodec cd) (s : ByteStream) (h : Inv cd s) (c : StoreCall K V) (hc : WellUsed cd c) :
    ∃ a s', plain (byteStream cd) (byteStreamGet cd) s c = .ok (a, s') ∧ Inv cd s' ∧ s'.capacity = s.capacity := by
  cases c with
  | op o =>
    obtain ⟨out, s', h1, h2, h3⟩ := step_inv hsmall s h o
    obtain ⟨r, p1, -⟩ := plain_op (B := byteStream cd) (G := byteStreamGet cd) h1
    exact ⟨.obs r, s', p1, h2, h3⟩
  | get k =>
    obtain ⟨v, h1, -⟩ := get_spec s h k id
    refine ⟨.val v, s, ?_, h, rfl⟩
    show (ByteStream.get cd s k id >>= _) = _
    rw [h1]; rfl
  | getMut k f half =>
    obtain ⟨v, s', h1, h2, h3, -⟩ := getMut_spec hsmall s h k f (hc.1.sameClass hsmall)
    refine ⟨.val v, s', ?_, h2, h3⟩
    show (ByteStream.getMut cd s k f >>= _) = _
    rw [h1]; rfl

theorem stream_panics (hsmall : SmallCodec cd) (s : ByteStream) (h : Inv cd s) (c : StoreCall K V)
    (hc : WellUsed cd c) :
    (storeCall (streamU cd (id : V → V)) c).Esc s fun s' =>
      Inv cd s' ∧ s'.capacity = s.capacity ∧ Leaves cd s s' c := by
  have hp := everything_spec s h
  refine storeCall_esc c ?_
  cases c with
  | op o =>
    cases o with
    | contains k => exact (streamContains_esc k s).mono fun s' e => by subst e; exact ⟨h, rfl, rfl⟩
    | take k =>
      refine (streamTake_esc k s h).mono fun s' ⟨e1, e2, e3⟩ => ⟨e1, e2, ?_⟩
      have hp' := everything_spec s' e1
      rw [e3] at hp'
      exact hp'.trans hp.symm
    | takeMultiple ks => exact (streamTakeMultiple_esc id ks s).mono fun s' e => by subst e; exact ⟨h, rfl, rfl⟩
    | pop n =>
      refine (streamPop_esc (id : V → V) n s h).mono fun s' ⟨e1, e2, lost, e3, out, t, e4, e5⟩ =>
        ⟨e1, e2, lost, out, t, e4, e5, ?_⟩
      exact ((everything_spec s' e1).append_right lost).trans (e3.trans hp.symm)
    | push l =>
      refine (streamPush_esc hsmall l s h).mono fun s' ⟨e1, e2, put, lost, e3, e4⟩ => ⟨e1, e2, put, lost, e4, ?_⟩
      exact (everything_spec s' e1).trans (e3.trans (hp.symm.append_right put))
    | flush =>
      refine (streamFlush_esc (id : V → V) s h).mono fun s' ⟨e1, e2, e3⟩ => ⟨e1, e2, ?_⟩
      have hp' := everything_spec s' e1
      rw [e3] at hp'
      exact hp'.eq_nil
  | get k => exact (streamGet_esc k s).mono fun s' e => by subst e; exact ⟨h, rfl, rfl⟩
  | getMut k f half =>
    refine (streamGetMut_esc k f half s).mono fun s' e => ?_
    rcases e with rfl | ⟨n, v, e⟩
    · exact ⟨h, rfl, .inl rfl⟩
    · obtain ⟨v', s1, h1, h2, h3, -⟩ := getMut_spec hsmall s h k (half n) ((hc.2 n).sameClass hsmall)
      rw [e] at h1
      simp only [Res.ok.injEq, Prod.mk.injEq] at h1
      obtain ⟨-, rfl⟩ := h1
      refine ⟨h2, h3, .inr ⟨n, v, ?_⟩⟩
      show (ByteStream.getMut cd s k (half n) >>= _) = _
      rw [e]; rfl

theorem storeCalls_inv (hsmall : SmallCodec cd) (l : List (StoreCall K V × Fates)) (hl : ∀ c ∈ l, WellUsed cd c.1) :
    ∀ s : ByteStream, Inv cd s → Inv cd (storeCalls (streamU cd (id : V → V)) s l).2 ∧
      (storeCalls (streamU cd (id : V → V)) s l).2.capacity = s.capacity := by
  induction l with
  | nil => intro s h; exact ⟨h, rfl⟩
  | cons x l ih =>
    intro s h
    obtain ⟨c, w⟩ := x
    have hc := hl (c, w) (by simp)
    rcases hr : (storeCall (streamU cd (id : V → V)) c).run w s with ⟨o, w', s'⟩
    have step : Inv cd s' ∧ s'.capacity = s.capacity := by
      cases o with
      | none => obtain ⟨e1, e2, -⟩ := stream_panics hsmall s h c hc w w' s' hr; exact ⟨e1, e2⟩
      | some a =>
        have h1 := (stream_same s h).returns hr
        obtain ⟨a1, s1, e1, e2, e3⟩ := plain_inv hsmall s h c hc
        rw [h1] at e1
        injection e1 with e1
        injection e1 with e0 e1
        have : s1 = s' := e1.symm
        subst this
        exact ⟨e2, e3⟩
    obtain ⟨g1, g2⟩ := ih (fun c hc => hl c (by simp [hc])) s' step.1
    simp only [storeCalls, hr]
    exact ⟨g1, g2.trans step.2⟩

/-- **C123 (`Stream`).** After any history of calls and accesses on a new `Stream`, some of which panicked because functions
of the user did: its capacity is what it was, its size does not exceed it and is the one of what it contains; a call that
returns does what it does when no function panics; a call that panics only loses elements if it is a `pop`, elements it
would have returned, or a `flush`, or a `push`, elements given to it; and once the functions of the user do not panic any
more, every call returns. -/
theorem C123_stream_partial (cd : Codec (K × V)) (hsmall : SmallCodec cd) (n : Nat) (l : List (StoreCall K V × Fates))
    (hl : ∀ c ∈ l, WellUsed cd c.1) (s : ByteStream)
    (hs : s = (storeCalls (streamU cd (id : V → V)) (ByteStream.new n) l).2) :
    (byteStream cd).capacity s = n ∧ (byteStream cd).size s ≤ n ∧
    (∃ chunks, List.Forall₂ (IsChunkOf cd) (everything cd s) chunks ∧ (byteStream cd).size s = chunks.sum) ∧
    (∀ c, WellUsed cd c → ∀ w o w' s', (storeCall (streamU cd (id : V → V)) c).run w s = (o, w', s') →
      match o with
      | some a => plain (byteStream cd) (byteStreamGet cd) s c = .ok (a, s')
      | none => Leaves cd s s' c) ∧
    ∀ c, WellUsed cd c → ∃ a s', (storeCall (streamU cd (id : V → V)) c).run [] s = (some a, [], s') := by
  obtain ⟨h2, hcap⟩ := storeCalls_inv hsmall l hl (ByteStream.new n) (new_inv n)
  rw [← hs] at h2 hcap
  replace hcap : s.capacity = n := hcap
  have hp := everything_spec s h2
  refine ⟨hcap, by rw [← hcap]; exact h2.bounded, ⟨(everything cd s).map (csz cd), ?_, ?_⟩, ?_, ?_⟩
  · rw [List.forall₂_map_right_iff, List.forall₂_same]
    intro e he
    obtain ⟨i, hi, -⟩ := isChunkOf_csz hsmall e (Inv.enc h2 e (hp.subset he))
    exact hi
  · exact h2.size.trans (total_perm _ hp.symm)
  · intro c hc w o w' s' hr
    cases o with
    | some a => exact (stream_same s h2).returns hr
    | none => exact (stream_panics hsmall s h2 c hc w w' s' hr).2.2
  · intro c hc
    obtain ⟨a, s', h1, -⟩ := plain_inv hsmall s h2 c hc
    exact ⟨a, s', (stream_same s h2).quiet h1⟩

end Stream

/-! ## What does not hold -/

/-- **C123 in full** for `Stream`: a call that panics, other than `push` and `get_mut`, loses nothing. -/
def C123_full : Prop := ∀ (K V : Type) (_ : LinearOrder K) (_ : LinearOrder V) (cd : Codec (K × V)),
  StreamProps.SmallCodec cd → ∀ (n : Nat) (l : List (StoreCall K V × Fates)), (∀ c ∈ l, WellUsed cd c.1) →
  ∀ (c : StoreCall K V) (w w' : Fates) (s' : ByteStream), given c = [] → (∀ k f half, c ≠ .getMut k f half) →
    (storeCall (streamU cd (id : V → V)) c).run w (storeCalls (streamU cd (id : V → V)) (ByteStream.new n) l).2 =
      (none, w', s') →
    (StreamProps.everything cd s').Perm
      (StreamProps.everything cd (storeCalls (streamU cd (id : V → V)) (ByteStream.new n) l).2)

abbrev S := streamU StreamProps.small (id : Nat → Nat)

/-- Two elements, then a `pop` of both during which the deserialisation of the second element to remove panics. -/
def lossy : List (StoreCall Nat Nat × Fates) :=
  [(.op (.push [(1, 0), (2, 0)]), []), (.op (.pop 100), [none, none, some 0])]

/-- The `pop` panics and one element is gone. -/
theorem C123_pop_loses : (storeCalls S (ByteStream.new 16) lossy).1.map Option.isSome = [true, false] ∧
    StreamProps.everything StreamProps.small (storeCalls S (ByteStream.new 16) lossy).2 = [(1, 0)] := by
  decide +kernel

/-- A `flush` whose first deserialisation panics loses everything. -/
theorem C123_flush_loses :
    let r := storeCalls S (ByteStream.new 16) [(.op (.push [(1, 0), (2, 0)]), []), (.op .flush, [some 0])]
    r.1.map Option.isSome = [true, false] ∧ StreamProps.everything StreamProps.small r.2 = [] := by
  decide +kernel

theorem C123_false : ¬ C123_full := by
  intro h
  have := h Nat Nat _ _ StreamProps.small StreamProps.small_small 16
    [(.op (.push [(1, 0), (2, 0)]), [])] (by simp [WellUsed]) (.op .flush) [some 0]
    ((storeCall S (.op .flush)).run [some 0]
      (storeCalls S (ByteStream.new 16) [(.op (.push [(1, 0), (2, 0)]), [])]).2).2.1
    ((storeCall S (.op .flush)).run [some 0]
      (storeCalls S (ByteStream.new 16) [(.op (.push [(1, 0), (2, 0)]), [])]).2).2.2
    rfl (by simp) (by
      have h1 : ((storeCall S (.op .flush)).run [some 0]
        (storeCalls S (ByteStream.new 16) [(.op (.push [(1, 0), (2, 0)]), [])]).2).1.isNone = true := by decide +kernel
      rw [Option.isNone_iff_eq_none] at h1
      rw [← h1])
  have hlen := this.length_eq
  revert hlen
  decide +kernel

/-! ## Examples -/

/-- Panics of every kind, then the `Stream` works as before: the `push` in which the serialisation of the second element
panics keeps the first, the `take` that panics in the removal changes nothing, and the cell whose user panics keeps 0. -/
example :
    let r := storeCalls S (ByteStream.new 16)
      [(.op (.push [(1, 0), (2, 0), (3, 0)]), [none, none, none, some 0]), (.op (.take 1), [none, some 0]),
       (.getMut 1 (fun _ => 0) (fun _ v => v), [none, some 0]), (.op (.contains 1), [some 0]), (.op (.contains 1), [])]
    r.1.map Option.isSome = [false, false, false, false, true] ∧
      StreamProps.everything StreamProps.small r.2 = [(1, 0)] := by
  decide +kernel

/-- The same calls on a `Compressed`: the `push` that panics stores nothing. -/
example :
    let r := storeCalls (compressedU CompressedProps.noComp CompressedProps.smallVec CompressedProps.byValue
        CompressedProps.byValue) (Compressed.new 100)
      [(.op (.push [(1, 0)]), []), (.op (.push [(2, 0)]), [none, none, none, some 0]), (.op (.take 1), [none, some 0]),
       (.getMut 1 (fun _ => 2) (fun _ _ => 3), [none, some 0])]
    r.1.map Option.isSome = [true, false, false, false] ∧
      (Byoc.compressed CompressedProps.noComp CompressedProps.smallVec CompressedProps.byValue
        CompressedProps.byValue).contents r.2 = [(1, 3)] := by
  decide +kernel

end StoreUnwindProps
end Byoc
