import Verif.Model.ConcStream
import Verif.Model.Combinators
import Verif.Proofs.ByteStreamOps
import Verif.Proofs.StreamMore

/-!
# Proofs about a `Stream` shared by several threads
-/

namespace Byoc.SharedStream

open ByteStream (Streams Good Class csz at' plt Small)

variable {K V : Type}

/-! ### Accesses -/

/-- Every element stays where it is. -/
def Grow (ls ls' : List (List (K × V))) : Prop := ∀ p e, at' ls p = some e → at' ls' p = some e

theorem Grow.refl (ls : List (List (K × V))) : Grow ls ls := fun _ _ h => h

theorem Grow.set {ls : List (List (K × V))} {a : Nat} {l : List (K × V)} (hl : ls[a]? = some l)
    (e : K × V) : Grow ls (ls.set a (l ++ [e])) := by
  intro p x h
  obtain ⟨l', h1, h2⟩ := ByteStream.at_some h
  unfold at'
  by_cases hp : p.1 = a
  · rw [hp] at h1 ⊢
    rw [hl] at h1; cases h1
    have : a < ls.length := by
      by_contra hc; rw [List.getElem?_eq_none (by omega)] at hl; simp at hl
    rw [List.getElem?_set_self this]
    have h3 : p.2 < l.length := by
      by_contra hc; rw [List.getElem?_eq_none (by omega)] at h2; simp at h2
    simp [List.getElem?_append_left h3, h2]
  · rw [List.getElem?_set_ne (fun h => hp h.symm)]
    simp [h1, h2]

theorem pushOne_spec {cd : Codec (K × V)} (hsmall : Small cd) (e : K × V) (t : Nat) {s : ByteStream}
    {ls : List (List (K × V))} (h1 : Streams cd 0 s.stream ls) (h2 : ls.length = 64) :
    pushOne cd e t s = .ok ([e], t, s) ∨
    ∃ s' ls', pushOne cd e t s = .ok ([], t + csz cd e, s') ∧ csz cd e + t ≤ s.capacity ∧
      Streams cd 0 s'.stream ls' ∧ ls'.length = 64 ∧ s'.capacity = s.capacity ∧
      (e :: ls.flatten).Perm ls'.flatten ∧ Grow ls ls' := by
  unfold pushOne
  cases henc : cd.enc e with
  | none => exact Or.inl rfl
  | some b =>
    obtain ⟨i, c1, c2, c3⟩ := chunkSize_spec b.length (hsmall e b henc)
    have hcls : Class cd i e := ⟨b, henc, c1⟩
    have hsz := hcls.csz
    simp only [c1, Res.ok_bind, Res.pure_eq]
    by_cases hfull : 2 ^ i + t > s.capacity
    · rw [if_pos hfull]; exact Or.inl rfl
    · rw [if_neg hfull]
      right
      obtain ⟨lst, hl⟩ : ∃ lst, ls[i]? = some lst := ⟨_, List.getElem?_eq_getElem (by omega)⟩
      obtain ⟨o, k1, k2⟩ := h1.get i lst hl
      rw [Nat.zero_add] at k2
      have key : ∃ v', (o.getD ⟨VecStream.new, 2 ^ i⟩).append cd [e] = .ok (true, v') ∧
          Good cd i (some v') (lst ++ [e]) := by
        cases o with
        | none =>
          simp only [Good] at k2; subst k2
          obtain ⟨v', a1, a2, a3⟩ := (IOVec.Repr.new (cd := cd) (Nat.two_pow_pos i)).append_one e
            ⟨b, henc, c2⟩
          exact ⟨v', a1, a2, ⟨_, a3⟩, by simpa using hcls⟩
        | some v =>
          obtain ⟨q1, ⟨m, q2⟩, q3⟩ := k2
          obtain ⟨v', a1, a2, a3⟩ := q2.append_one e ⟨b, henc, by rw [q1]; exact c2⟩
          refine ⟨v', a1, a2.trans q1, ⟨_, a3⟩, ?_⟩
          intro x hx
          rcases List.mem_append.1 hx with hx | hx
          · exact q3 x hx
          · simp at hx; subst hx; exact hcls
      obtain ⟨v', a1, a2⟩ := key
      have hset := h1.set i (some v') (lst ++ [e]) (by rw [Nat.zero_add]; exact a2)
      have hperm : ([e] ++ ls.flatten).Perm ((ls.set i (lst ++ [e])).flatten) := by
        have := ByteStream.flatten_set_perm (d := [e]) (d' := []) (l' := lst ++ [e]) hl
          (by simpa using (List.perm_append_singleton e lst).symm)
        simpa using this
      refine ⟨{ s with stream := s.stream.set i (some v') }, _, ?_, by rw [hsz]; omega, hset,
        by simpa using h2, rfl, hperm, Grow.set hl e⟩
      simp [k1, a1, hsz]

/-- `push` is its iterations, one after the other. -/
theorem pushLoop_cons (cd : Codec (K × V)) (e : K × V) (l : List (K × V)) (t : Nat) (s : ByteStream) :
    ByteStream.pushLoop cd (e :: l) t s = (do
      let (o, t, s) ← pushOne cd e t s
      let (out, s) ← ByteStream.pushLoop cd l t s
      pure (o ++ out, s)) := by
  unfold pushOne
  rw [ByteStream.pushLoop]
  cases cd.enc e with
  | none => rfl
  | some b =>
    simp only
    cases chunkSize b.length with
    | panic => rfl
    | ok x =>
      obtain ⟨i, c⟩ := x
      simp only [Res.ok_bind]
      by_cases hfull : c + t > s.capacity
      · rw [if_pos hfull, if_pos hfull]; rfl
      · rw [if_neg hfull, if_neg hfull]
        cases s.stream[i]? with
        | none => rfl
        | some o =>
          simp only [Res.unwrap_some, Res.ok_bind]
          cases (o.getD ⟨VecStream.new, c⟩).append cd [e] with
          | panic => rfl
          | ok y =>
            obtain ⟨ok, v⟩ := y
            simp only [Res.ok_bind]
            cases ok with
            | false => rfl
            | true =>
              simp only [if_true, Res.ok_bind, Res.pure_eq, List.nil_append]
              cases ByteStream.pushLoop cd l (t + c) _ <;> rfl

theorem removeAt_any {cd : Codec (K × V)} {st : List (Option IOVec)} {ls : List (List (K × V))}
    (h : Streams cd 0 st ls) (i j : Nat) :
    ByteStream.removeAt cd st i j = .panic ∨
    ∃ o st' ls', ByteStream.removeAt cd st i j = .ok (o, st') ∧ Streams cd 0 st' ls' ∧
      ls'.length = ls.length ∧ (o.toList ++ ls'.flatten).Subperm ls.flatten := by
  by_cases hi : i < ls.length
  · obtain ⟨l, hl⟩ : ∃ l, ls[i]? = some l := ⟨_, List.getElem?_eq_getElem hi⟩
    cases hj : l[j]? with
    | some e =>
      right
      obtain ⟨st', h1, h2⟩ := h.removeAt i j l e hl hj
      refine ⟨some e, st', _, h1, h2, by simp, ?_⟩
      have := ByteStream.flatten_set_perm (d := []) (d' := [e]) (l' := Byoc.swapRemove l j) hl
        (by simpa using (swapRemove_perm hj).symm)
      simp only [List.nil_append] at this
      simpa using this.symm.subperm
    | none =>
      obtain ⟨o, h1, h2⟩ := h.get i l hl
      rw [Nat.zero_add] at h2
      cases o with
      | none => left; simp [ByteStream.removeAt, h1, Res.unwrap]
      | some v =>
        right
        obtain ⟨g1, ⟨m, g2⟩, g3⟩ := h2
        by_cases hne : l = []
        · subst hne
          obtain ⟨v', m', k1, k2, k3⟩ := g2.swapRemove_nil j
          refine ⟨none, st.set i (some v'), ls.set i [], by simp [ByteStream.removeAt, h1, k1],
            h.set i _ _ ?_, by simp, ?_⟩
          · rw [Nat.zero_add]; exact ⟨k2.trans g1, ⟨m', k3⟩, by simp⟩
          · have := ByteStream.flatten_set_perm (d := []) (d' := []) (l' := []) hl (by simp)
            simpa using this.symm.subperm
        · obtain ⟨v', m', k1, k2, k3⟩ := g2.swapRemove_past j
            (by by_contra hc; rw [List.getElem?_eq_getElem (by omega)] at hj; simp at hj) hne
          refine ⟨none, st.set i (some v'), ls.set i l.dropLast, by simp [ByteStream.removeAt, h1, k1],
            h.set i _ _ ?_, by simp, ?_⟩
          · rw [Nat.zero_add]
            exact ⟨k2.trans g1, ⟨m', k3⟩, fun x hx => g3 x (List.dropLast_subset l hx)⟩
          · have hp : ([] ++ l).Perm ([l.getLast hne] ++ l.dropLast) := by
              have := List.dropLast_append_getLast hne
              conv_lhs => rw [List.nil_append, ← this]
              exact List.perm_append_comm
            have := ByteStream.flatten_set_perm (l' := l.dropLast) hl hp
            have hs : ((ls.set i l.dropLast).flatten).Subperm ([l.getLast hne] ++ (ls.set i l.dropLast).flatten) :=
              (List.sublist_append_right _ _).subperm
            simpa using hs.trans this.symm.subperm
  · left
    have : st[i]? = none := List.getElem?_eq_none (by rw [h.length]; omega)
    simp [ByteStream.removeAt, this, Res.unwrap]

theorem removeAt_at {cd : Codec (K × V)} {st : List (Option IOVec)} {ls : List (List (K × V))}
    (h : Streams cd 0 st ls) {p : Nat × Nat} {e : K × V} (hp : at' ls p = some e) :
    ∃ st' ls', ByteStream.removeAt cd st p.1 p.2 = .ok (some e, st') ∧ Streams cd 0 st' ls' ∧
      ls'.length = ls.length ∧ (e :: ls'.flatten).Perm ls.flatten ∧
      ∀ q, plt q p → at' ls' q = at' ls q := by
  obtain ⟨l, h1, h2⟩ := ByteStream.at_some hp
  obtain ⟨st', k1, k2⟩ := h.removeAt p.1 p.2 l e h1 h2
  refine ⟨st', _, k1, k2, by simp, ?_, fun q hq => ByteStream.at_set_lt h1 h2 hq⟩
  have := ByteStream.flatten_set_perm (d := []) (d' := [e]) (l' := Byoc.swapRemove l p.2) h1
    (by simpa using (swapRemove_perm h2).symm)
  simpa using this.symm

theorem popPlaces_spec [LinearOrder V] {cd : Codec (K × V)} {s : ByteStream} {ls : List (List (K × V))}
    (h : Streams cd 0 s.stream ls) (n : Nat) :
    ∃ ps, popPlaces cd s n = .ok ps ∧ ps.Pairwise (fun p q => plt q p) ∧ ∀ p ∈ ps, (at' ls p).isSome := by
  obtain ⟨S, h1, h2, h3, h4⟩ := h.allSlots (id : V → V)
  simp only [Nat.zero_add] at h4
  obtain ⟨m, k1, k2, k3, -⟩ := KMin.pushAll_spec S (KMin.new n : KMin (ByteStream.Slot V)) [] (KMin.new_inv n)
  simp only [List.nil_append] at k2
  have hsub := k2.sub
  have hmn : m.items.Nodup :=
    k2.sorted.imp (fun {a b} (hlt : KMin.lt a b) (he : a = b) =>
      KMin.lt_irrefl a (by rw [← he] at hlt; exact hlt))
  have hinj : ∀ x ∈ S, ∀ y ∈ S, ByteStream.place x = ByteStream.place y → x = y := by
    intro x hx y hy hxy
    obtain ⟨a, j, l, e, p1, p2, p3⟩ := h4 x hx
    obtain ⟨a', j', l', e', q1, q2, q3⟩ := h4 y hy
    rw [p3, q3] at hxy
    simp only [ByteStream.place, ofLex_toLex, Prod.mk.injEq] at hxy
    obtain ⟨rfl, rfl⟩ := hxy
    rw [p1] at q1; cases q1
    rw [p2] at q2; cases q2
    rw [p3, q3]
  have hpn : (m.items.map ByteStream.place).Nodup := by
    rw [List.nodup_map_iff_inj_on hmn]
    intro x hx y hy hxy
    exact hinj x (hsub x hx) y (hsub y hy) hxy
  obtain ⟨d1, d2⟩ := ByteStream.descending_spec _ hpn
  refine ⟨_, by simp only [popPlaces, h1, k1, Res.ok_bind, Res.pure_eq]; rfl, d2, ?_⟩
  intro p hp
  obtain ⟨x, hx, rfl⟩ := List.mem_map.1 (d1.subset hp)
  obtain ⟨a, j, l, e, p1, p2, p3⟩ := h4 x (hsub x hx)
  simp [p3, ByteStream.place, at', p1, p2]

theorem popPlaces_pop [LinearOrder V] (cd : Codec (K × V)) (s : ByteStream) (n : Nat) :
    ByteStream.pop cd s n = (do
      let ps ← popPlaces cd s n
      let (out, st) ← ByteStream.removeAll cd ps s.stream
      pure (out, { s with stream := st })) := by
  unfold ByteStream.pop ByteStream.popBy popPlaces
  cases ByteStream.allSlots cd (id : V → V) 0 s.stream with
  | panic => rfl
  | ok S =>
    simp only [Res.ok_bind]
    cases (KMin.new n : KMin (ByteStream.Slot V)).pushAll S <;> rfl


/-! ### What threads hold -/

/-- Elements a thread has in hand. -/
def Pc.held : Pc K V → List (K × V)
  | .idle => []
  | .start o => o.given
  | .push _ todo _ out => todo ++ out
  | .taking _ _ out => out
  | .removing _ _ _ _ _ out => out
  | .pop _ _ out => out
  | .ret _ r => r.elements
  | .dead => []

/-- The call a thread is in. -/
def Pc.op : Pc K V → Option (Op K V)
  | .idle => none
  | .start o => some o
  | .push l _ _ _ => some (.push l)
  | .taking o _ _ => some o
  | .removing o _ _ _ _ _ => some o
  | .pop n _ _ => some (.pop n)
  | .ret o _ => some o
  | .dead => none

/-- What a thread may still add. -/
def Pc.slack (C : Nat) : Pc K V → Nat
  | .push _ _ total _ => C - total
  | _ => 0

theorem Pc.slack_le (C : Nat) (p : Pc K V) : p.slack C ≤ C := by
  cases p <;> simp [Pc.slack]

/-- The keys `take` and `take_multiple` look for. -/
def opKeys : Op K V → Option (List K)
  | .take k => some [k]
  | .takeMultiple ks => some ks
  | _ => none

/-- `take`, `take_multiple` or `pop`. -/
def _root_.Byoc.Op.Removes (o : Op K V) : Prop :=
  (∃ k, o = .take k) ∨ (∃ ks, o = .takeMultiple ks) ∨ ∃ n, o = .pop n

theorem removes_of_keys {o : Op K V} {ks : List K} (h : opKeys o = some ks) : o.Removes := by
  cases o <;> simp [opKeys] at h
  · exact Or.inl ⟨_, rfl⟩
  · exact Or.inr (Or.inl ⟨_, rfl⟩)

/-- The keys looked at so far, in `take` and `take_multiple`. -/
def Pc.Wf : Pc K V → Prop
  | .taking o todo out => ∃ pre ks, opKeys o = some ks ∧ ks = pre ++ todo ∧ out.length ≤ pre.length
  | .removing o k _ _ todo out =>
    ∃ pre ks, opKeys o = some ks ∧ ks = pre ++ k :: todo ∧ out.length ≤ pre.length
  | _ => True

theorem result_elements {o : Op K V} {ks : List K} {out : List (K × V)} (h : opKeys o = some ks)
    (hl : out.length ≤ ks.length) : (result o out).elements = out := by
  cases o <;> simp [opKeys] at h
  · subst h
    simp only [result, Obs.elements]
    match out, hl with
    | [], _ => rfl
    | [x], _ => rfl
  · rfl

section
variable [LinearOrder K] [LinearOrder V] {cd : Codec (K × V)}

omit [LinearOrder K] [LinearOrder V] in
theorem sub_eq {a b : List (K × V)} (h : a = b) : a.Subperm b := h ▸ List.Subperm.refl _

omit [LinearOrder K] [LinearOrder V] in
theorem sub_left (a b : List (K × V)) : (a ++ []).Subperm (a ++ b) := by
  rw [List.append_nil]; exact (List.sublist_append_left a b).subperm

omit [LinearOrder K] [LinearOrder V] in
theorem total_sublist (f : K × V → Nat) {a b : List (K × V)} (h : a.Sublist b) : total f a ≤ total f b := by
  induction h with
  | slnil => simp
  | cons x _ ih => rw [total_cons]; omega
  | cons_cons x _ ih => rw [total_cons, total_cons]; omega

omit [LinearOrder K] [LinearOrder V] in
theorem total_subperm (f : K × V → Nat) {a b : List (K × V)} (h : a.Subperm b) : total f a ≤ total f b := by
  obtain ⟨m, m1, m2⟩ := h
  rw [← total_perm f m1]
  exact total_sublist f m2

/-- What is in hand after a step. -/
def after (q : Pc K V ⊕ Op K V) : List (K × V) :=
  match q with
  | .inl p => p.held
  | .inr _ => []

/-- What may be added after a step. -/
def slackAfter (C : Nat) (q : Pc K V ⊕ Op K V) : Nat :=
  match q with
  | .inl p => p.slack C
  | .inr _ => 0

/-- One step of a thread, whatever the others do. -/
theorem next_spec (hsmall : Small cd) {s s' : ByteStream} {ls : List (List (K × V))}
    (h1 : Streams cd 0 s.stream ls) (h2 : ls.length = 64) {p : Pc K V} {q : Pc K V ⊕ Op K V}
    (hw : p.Wf) (h : next cd s p = some (q, s')) :
    ∃ ls', Streams cd 0 s'.stream ls' ∧ ls'.length = 64 ∧ s'.capacity = s.capacity ∧
      (ls'.flatten ++ after q).Subperm (ls.flatten ++ p.held) ∧
      (total (csz cd) ls'.flatten + slackAfter s.capacity q ≤ total (csz cd) ls.flatten + p.slack s.capacity ∨
        total (csz cd) ls'.flatten + slackAfter s.capacity q ≤ s.capacity) ∧
      match q with
      | .inl p' => p'.Wf ∧ p'.op = p.op
      | .inr o => o.Removes ∧ p.op = some o := by
  cases p with
  | idle => simp [next] at h
  | dead => simp [next] at h
  | ret o r => simp [next] at h
  | start o =>
    cases o with
    | contains k =>
      obtain ⟨b, g1, -⟩ := h1.contains k
      simp only [next, begin, g1, Res.ok_bind, Res.pure_eq, Option.some.injEq, Prod.mk.injEq] at h
      obtain ⟨rfl, rfl⟩ := h
      exact ⟨ls, h1, h2, rfl, sub_eq (by simp [after, Pc.held, Op.given, Obs.elements]), by simp [slackAfter, Pc.slack],
        trivial, rfl⟩
    | take k =>
      simp only [next, begin, Res.pure_eq, Option.some.injEq, Prod.mk.injEq] at h
      obtain ⟨rfl, rfl⟩ := h
      exact ⟨ls, h1, h2, rfl, sub_eq (by simp [after, Pc.held, Op.given]), by simp [slackAfter, Pc.slack],
        ⟨[], _, rfl, rfl, by simp⟩, rfl⟩
    | takeMultiple ks =>
      simp only [next, begin, Res.pure_eq, Option.some.injEq, Prod.mk.injEq] at h
      obtain ⟨rfl, rfl⟩ := h
      exact ⟨ls, h1, h2, rfl, sub_eq (by simp [after, Pc.held, Op.given]), by simp [slackAfter, Pc.slack],
        ⟨[], _, rfl, rfl, by simp⟩, rfl⟩
    | pop n =>
      obtain ⟨ps, g1, -, -⟩ := popPlaces_spec h1 n
      simp only [next, begin, g1, Res.ok_bind, Res.pure_eq, Option.some.injEq, Prod.mk.injEq] at h
      obtain ⟨rfl, rfl⟩ := h
      exact ⟨ls, h1, h2, rfl, sub_eq (by simp [after, Pc.held, Op.given]), by simp [slackAfter, Pc.slack],
        trivial, rfl⟩
    | push l =>
      simp only [next, begin, Res.pure_eq, Option.some.injEq, Prod.mk.injEq] at h
      obtain ⟨rfl, rfl⟩ := h
      have hsz : s.size = total (csz cd) ls.flatten := by rw [ByteStream.size, h1.size]
      refine ⟨ls, h1, h2, rfl, sub_eq (by simp [after, Pc.held, Op.given]), ?_, trivial, rfl⟩
      simp only [slackAfter, Pc.slack, hsz]
      omega
    | flush =>
      obtain ⟨out, g1, g2⟩ := h1.flushGo
      simp only [next, begin, ByteStream.flush, g1, Res.ok_bind, Res.pure_eq, Option.some.injEq,
        Prod.mk.injEq] at h
      obtain ⟨rfl, rfl⟩ := h
      have hlen := h1.length
      have hnil : (List.map (fun _ => ([] : List (K × V))) s.stream).flatten = [] := by
        simp
      refine ⟨_, ByteStream.flush_streams s.stream 0, by simp [hlen, h2], rfl, ?_, ?_, trivial, rfl⟩
      · rw [hnil]; simpa [after, Pc.held, Op.given, Obs.elements] using g2.subperm
      · rw [hnil]; simp [slackAfter, Pc.slack]
  | push l todo t out =>
    cases todo with
    | nil =>
      simp only [next, Option.some.injEq, Prod.mk.injEq] at h
      obtain ⟨rfl, rfl⟩ := h
      exact ⟨ls, h1, h2, rfl, sub_eq (by simp [after, Pc.held, Obs.elements]), by simp [slackAfter, Pc.slack],
        trivial, rfl⟩
    | cons e todo =>
      rcases pushOne_spec hsmall e t h1 h2 with g | ⟨s1, ls1, g1, g2, g3, g4, g5, g6, -⟩
      · simp only [next, g, Option.some.injEq, Prod.mk.injEq] at h
        obtain ⟨rfl, rfl⟩ := h
        refine ⟨ls, h1, h2, rfl, ?_, by simp [slackAfter, Pc.slack], trivial, rfl⟩
        simp only [after, Pc.held]
        subperms [List.Subperm.refl out] []
      · simp only [next, g1, Option.some.injEq, Prod.mk.injEq] at h
        obtain ⟨rfl, rfl⟩ := h
        refine ⟨ls1, g3, g4, g5, ?_, ?_, trivial, rfl⟩
        · simp only [after, Pc.held]
          subperms [List.Subperm.refl out] [g6]
        · left
          rw [← total_perm _ g6, total_cons]
          simp only [slackAfter, Pc.slack]
          omega
  | taking o todo out =>
    cases todo with
    | nil =>
      simp only [next, Option.some.injEq, Prod.mk.injEq] at h
      obtain ⟨rfl, rfl⟩ := h
      obtain ⟨pre, ks, w1, w2, w3⟩ := hw
      refine ⟨ls, h1, h2, rfl, ?_, by simp [slackAfter, Pc.slack], trivial, rfl⟩
      simp only [after, Pc.held]
      rw [result_elements w1 (by rw [w2]; simpa using w3)]
    | cons k todo =>
      obtain ⟨pre, ks, w1, w2, w3⟩ := hw
      rcases h1.find k with ⟨g, -⟩ | ⟨a, j, l, e, g, -, -, -⟩
      · simp only [next, g, Option.some.injEq, Prod.mk.injEq] at h
        obtain ⟨rfl, rfl⟩ := h
        exact ⟨ls, h1, h2, rfl, sub_eq (by simp [after, Pc.held]), by simp [slackAfter, Pc.slack],
          ⟨pre ++ [k], ks, w1, by simp [w2], by simp; omega⟩, rfl⟩
      · simp only [next, g, Option.some.injEq, Prod.mk.injEq] at h
        obtain ⟨rfl, rfl⟩ := h
        exact ⟨ls, h1, h2, rfl, sub_eq (by simp [after, Pc.held]), by simp [slackAfter, Pc.slack],
          ⟨pre, ks, w1, w2, w3⟩, rfl⟩
  | removing o k i j todo out =>
    obtain ⟨pre, ks, w1, w2, w3⟩ := hw
    rcases removeAt_any h1 i j with g | ⟨x, st, ls', g1, g2, g3, g4⟩
    · simp only [next, g, Option.some.injEq, Prod.mk.injEq] at h
      obtain ⟨rfl, rfl⟩ := h
      exact ⟨ls, h1, h2, rfl, sub_left _ _, by simp [slackAfter, Pc.slack], removes_of_keys w1, rfl⟩
    · have hle : total (csz cd) ls'.flatten ≤ total (csz cd) ls.flatten := by
        have := total_subperm (csz cd) g4
        rw [total_append] at this
        omega
      cases x with
      | none =>
        simp only [next, g1, Option.some.injEq, Prod.mk.injEq] at h
        obtain ⟨rfl, rfl⟩ := h
        refine ⟨ls', g2, g3.trans h2, rfl, ?_, ?_, removes_of_keys w1, rfl⟩
        · simp only [after, Pc.held]
          subperms [g4, List.Subperm.refl out] []
        · left; simpa [slackAfter, Pc.slack] using hle
      | some e =>
        simp only [next, g1, Option.some.injEq, Prod.mk.injEq] at h
        obtain ⟨rfl, rfl⟩ := h
        refine ⟨ls', g2, g3.trans h2, rfl, ?_, ?_,
          ⟨pre ++ [k], ks, w1, by simp [w2], by simp; omega⟩, rfl⟩
        · simp only [after, Pc.held, Option.toList] at g4 ⊢
          subperms [g4, List.Subperm.refl out] []
        · left; simpa [slackAfter, Pc.slack] using hle
  | pop n todo out =>
    cases todo with
    | nil =>
      simp only [next, Option.some.injEq, Prod.mk.injEq] at h
      obtain ⟨rfl, rfl⟩ := h
      exact ⟨ls, h1, h2, rfl, sub_eq (by simp [after, Pc.held, Obs.elements]), by simp [slackAfter, Pc.slack],
        trivial, rfl⟩
    | cons x todo =>
      obtain ⟨i, j⟩ := x
      rcases removeAt_any h1 i j with g | ⟨x, st, ls', g1, g2, g3, g4⟩
      · simp only [next, g, Option.some.injEq, Prod.mk.injEq] at h
        obtain ⟨rfl, rfl⟩ := h
        exact ⟨ls, h1, h2, rfl, sub_left _ _, by simp [slackAfter, Pc.slack],
          Or.inr (Or.inr ⟨n, rfl⟩), rfl⟩
      · have hle : total (csz cd) ls'.flatten ≤ total (csz cd) ls.flatten := by
          have := total_subperm (csz cd) g4
          rw [total_append] at this
          omega
        cases x with
        | none =>
          simp only [next, g1, Option.some.injEq, Prod.mk.injEq] at h
          obtain ⟨rfl, rfl⟩ := h
          refine ⟨ls', g2, g3.trans h2, rfl, ?_, ?_, trivial, rfl⟩
          · simp only [after, Pc.held, Obs.elements]
            subperms [g4, List.Subperm.refl out] []
          · left; simpa [slackAfter, Pc.slack] using hle
        | some e =>
          simp only [next, g1, Option.some.injEq, Prod.mk.injEq] at h
          obtain ⟨rfl, rfl⟩ := h
          refine ⟨ls', g2, g3.trans h2, rfl, ?_, ?_, trivial, rfl⟩
          · simp only [after, Pc.held, Option.toList] at g4 ⊢
            subperms [g4, List.Subperm.refl out] []
          · left; simpa [slackAfter, Pc.slack] using hle


/-! ### Nobody else removes -/

/-- The answer to a call: `take` and `take_multiple` return elements with the keys asked. -/
def Answer (o : Op K V) (r : Obs K V) : Prop :=
  match o with
  | .contains _ => ∃ b, r = .bool b
  | .take k => ∃ x, r = .opt x ∧ ∀ e, x = some e → e.1 = k
  | .takeMultiple ks => ∃ out, r = .keyed out ks ∧ (out.map Prod.fst).Sublist ks
  | .pop _ => ∃ out, r = .many out
  | .push _ => ∃ out, r = .many out
  | .flush => ∃ out, r = .many out

/-- The places a thread has in mind are right. -/
def Valid (ls : List (List (K × V))) : Pc K V → Prop
  | .taking o todo out => ∃ pre ks, opKeys o = some ks ∧ ks = pre ++ todo ∧ (out.map Prod.fst).Sublist pre
  | .removing o k i j todo out =>
    (∃ pre ks, opKeys o = some ks ∧ ks = pre ++ k :: todo ∧ (out.map Prod.fst).Sublist pre) ∧
      ∃ e, at' ls (i, j) = some e ∧ e.1 = k
  | .pop _ todo _ => todo.Pairwise (fun p q => plt q p) ∧ ∀ p ∈ todo, (at' ls p).isSome
  | .ret o r => Answer o r
  | _ => True

omit [LinearOrder K] [LinearOrder V] in
theorem Valid.grow {ls ls' : List (List (K × V))} (hg : Grow ls ls') {p : Pc K V} (h : Valid ls p) :
    Valid ls' p := by
  cases p with
  | removing o k i j todo out =>
    obtain ⟨h1, e, h2, h3⟩ := h
    exact ⟨h1, e, hg _ _ h2, h3⟩
  | pop n todo out =>
    refine ⟨h.1, fun p hp => ?_⟩
    obtain ⟨e, he⟩ := Option.isSome_iff_exists.1 (h.2 p hp)
    rw [hg _ _ he]; rfl
  | _ => exact h

omit [LinearOrder K] [LinearOrder V] in
theorem answer_result {o : Op K V} {ks : List K} {out : List (K × V)} (h : opKeys o = some ks)
    (hs : (out.map Prod.fst).Sublist ks) : Answer o (result o out) := by
  cases o <;> simp [opKeys] at h
  · subst h
    refine ⟨_, rfl, ?_⟩
    intro e he
    have : e ∈ out := List.mem_of_mem_head? he
    simpa using hs.subset (List.mem_map_of_mem this)
  · subst h; exact ⟨_, rfl, hs⟩

/-- Calls that remove elements. -/
def _root_.Byoc.Op.removal : Op K V → Bool
  | .contains _ => false
  | .push _ => false
  | _ => true

omit [LinearOrder K] [LinearOrder V] in
theorem removal_of_keys {o : Op K V} {ks : List K} (h : opKeys o = some ks) : o.removal = true := by
  cases o <;> simp [opKeys] at h <;> rfl

/-- One step of a thread whose places are right. -/
theorem next_exact (hsmall : Small cd) {s s' : ByteStream} {ls : List (List (K × V))}
    (h1 : Streams cd 0 s.stream ls) (h2 : ls.length = 64) {p : Pc K V} {q : Pc K V ⊕ Op K V}
    (hv : Valid ls p) (h : next cd s p = some (q, s')) :
    ∃ p' ls', q = .inl p' ∧ Streams cd 0 s'.stream ls' ∧ ls'.length = 64 ∧ s'.capacity = s.capacity ∧
      (p.op ≠ some .flush → (ls'.flatten ++ p'.held).Perm (ls.flatten ++ p.held)) ∧
      Valid ls' p' ∧ p'.op = p.op ∧
      (∀ o, p.op = some o → o.removal = false → Grow ls ls' ∧ ls.flatten ⊆ ls'.flatten) := by
  cases p with
  | idle => simp [next] at h
  | dead => simp [next] at h
  | ret o r => simp [next] at h
  | start o =>
    cases o with
    | contains k =>
      obtain ⟨b, g1, -⟩ := h1.contains k
      simp only [next, begin, g1, Res.ok_bind, Res.pure_eq, Option.some.injEq, Prod.mk.injEq] at h
      obtain ⟨rfl, rfl⟩ := h
      exact ⟨_, ls, rfl, h1, h2, rfl, fun _ => .rfl, ⟨_, rfl⟩, rfl, fun _ _ _ => ⟨.refl _, fun _ h => h⟩⟩
    | take k =>
      simp only [next, begin, Res.pure_eq, Option.some.injEq, Prod.mk.injEq] at h
      obtain ⟨rfl, rfl⟩ := h
      exact ⟨_, ls, rfl, h1, h2, rfl, fun _ => .rfl, ⟨[], _, rfl, rfl, by simp⟩, rfl,
        fun _ _ _ => ⟨.refl _, fun _ h => h⟩⟩
    | takeMultiple ks =>
      simp only [next, begin, Res.pure_eq, Option.some.injEq, Prod.mk.injEq] at h
      obtain ⟨rfl, rfl⟩ := h
      exact ⟨_, ls, rfl, h1, h2, rfl, fun _ => .rfl, ⟨[], _, rfl, rfl, by simp⟩, rfl,
        fun _ _ _ => ⟨.refl _, fun _ h => h⟩⟩
    | pop n =>
      obtain ⟨ps, g1, g2, g3⟩ := popPlaces_spec h1 n
      simp only [next, begin, g1, Res.ok_bind, Res.pure_eq, Option.some.injEq, Prod.mk.injEq] at h
      obtain ⟨rfl, rfl⟩ := h
      exact ⟨_, ls, rfl, h1, h2, rfl, fun _ => .rfl, ⟨g2, g3⟩, rfl,
        fun _ _ _ => ⟨.refl _, fun _ h => h⟩⟩
    | push l =>
      simp only [next, begin, Res.pure_eq, Option.some.injEq, Prod.mk.injEq] at h
      obtain ⟨rfl, rfl⟩ := h
      exact ⟨_, ls, rfl, h1, h2, rfl, fun _ => by simp [Pc.held, Op.given], trivial, rfl,
        fun _ _ _ => ⟨.refl _, fun _ h => h⟩⟩
    | flush =>
      obtain ⟨out, g1, g2⟩ := h1.flushGo
      simp only [next, begin, ByteStream.flush, g1, Res.ok_bind, Res.pure_eq, Option.some.injEq,
        Prod.mk.injEq] at h
      obtain ⟨rfl, rfl⟩ := h
      have hlen := h1.length
      refine ⟨_, _, rfl, ByteStream.flush_streams s.stream 0, by simp [hlen, h2], rfl,
        fun h => absurd rfl h, ⟨_, rfl⟩, rfl, ?_⟩
      intro o ho hr
      simp only [Pc.op, Option.some.injEq] at ho
      subst ho
      simp [Op.removal] at hr
  | push l todo t out =>
    cases todo with
    | nil =>
      simp only [next, Option.some.injEq, Prod.mk.injEq] at h
      obtain ⟨rfl, rfl⟩ := h
      exact ⟨_, ls, rfl, h1, h2, rfl, fun _ => .rfl, ⟨_, rfl⟩, rfl,
        fun _ _ _ => ⟨.refl _, fun _ h => h⟩⟩
    | cons e todo =>
      rcases pushOne_spec hsmall e t h1 h2 with g | ⟨s1, ls1, g1, g2, g3, g4, g5, g6, g7⟩
      · simp only [next, g, Option.some.injEq, Prod.mk.injEq] at h
        obtain ⟨rfl, rfl⟩ := h
        refine ⟨_, ls, rfl, h1, h2, rfl, fun _ => ?_, trivial, rfl,
          fun _ _ _ => ⟨.refl _, fun _ h => h⟩⟩
        simp only [Pc.held]
        perms [List.Perm.refl out]
      · simp only [next, g1, Option.some.injEq, Prod.mk.injEq] at h
        obtain ⟨rfl, rfl⟩ := h
        refine ⟨_, ls1, rfl, g3, g4, g5, fun _ => ?_, trivial, rfl,
          fun _ _ _ => ⟨g7, fun x hx => g6.subset (List.mem_cons_of_mem _ hx)⟩⟩
        simp only [Pc.held]
        perms [g6]
  | taking o todo out =>
    cases todo with
    | nil =>
      simp only [next, Option.some.injEq, Prod.mk.injEq] at h
      obtain ⟨rfl, rfl⟩ := h
      obtain ⟨pre, ks, w1, w2, w3⟩ := hv
      simp only [List.append_nil] at w2
      subst w2
      refine ⟨_, ls, rfl, h1, h2, rfl, fun _ => ?_, answer_result w1 w3, rfl,
        fun _ _ _ => ⟨.refl _, fun _ h => h⟩⟩
      simp only [Pc.held]
      rw [result_elements w1 (by simpa using w3.length_le)]
    | cons k todo =>
      obtain ⟨pre, ks, w1, w2, w3⟩ := hv
      rcases h1.find k with ⟨g, -⟩ | ⟨a, j, l, e, g, g2, g3, g4⟩
      · simp only [next, g, Option.some.injEq, Prod.mk.injEq] at h
        obtain ⟨rfl, rfl⟩ := h
        exact ⟨_, ls, rfl, h1, h2, rfl, fun _ => .rfl,
          ⟨pre ++ [k], ks, w1, by simp [w2], w3.trans (List.sublist_append_left _ _)⟩, rfl,
          fun _ _ _ => ⟨.refl _, fun _ h => h⟩⟩
      · simp only [next, g, Option.some.injEq, Prod.mk.injEq] at h
        obtain ⟨rfl, rfl⟩ := h
        exact ⟨_, ls, rfl, h1, h2, rfl, fun _ => .rfl,
          ⟨⟨pre, ks, w1, w2, w3⟩, e, by simp [at', g2, g3], g4⟩, rfl,
          fun _ _ _ => ⟨.refl _, fun _ h => h⟩⟩
  | removing o k i j todo out =>
    obtain ⟨⟨pre, ks, w1, w2, w3⟩, e, g1, g2⟩ := hv
    obtain ⟨st, ls', k1, k2, k3, k4, -⟩ := removeAt_at h1 g1
    simp only [next, k1, Option.some.injEq, Prod.mk.injEq] at h
    obtain ⟨rfl, rfl⟩ := h
    refine ⟨_, ls', rfl, k2, k3.trans h2, rfl, fun _ => ?_,
      ⟨pre ++ [k], ks, w1, by simp [w2], ?_⟩, rfl, ?_⟩
    · simp only [Pc.held]
      perms [k4]
    · rw [List.map_append]
      exact w3.append (by simp [g2])
    · intro o' ho hr
      simp only [Pc.op, Option.some.injEq] at ho
      subst ho
      simp [removal_of_keys w1] at hr
  | pop n todo out =>
    cases todo with
    | nil =>
      simp only [next, Option.some.injEq, Prod.mk.injEq] at h
      obtain ⟨rfl, rfl⟩ := h
      exact ⟨_, ls, rfl, h1, h2, rfl, fun _ => .rfl, ⟨_, rfl⟩, rfl,
        fun _ _ _ => ⟨.refl _, fun _ h => h⟩⟩
    | cons x todo =>
      obtain ⟨v1, v2⟩ := hv
      obtain ⟨e, he⟩ := Option.isSome_iff_exists.1 (v2 x (by simp))
      obtain ⟨st, ls', k1, k2, k3, k4, k5⟩ := removeAt_at h1 he
      obtain ⟨i, j⟩ := x
      simp only [next, k1, Option.some.injEq, Prod.mk.injEq] at h
      obtain ⟨rfl, rfl⟩ := h
      rw [List.pairwise_cons] at v1
      refine ⟨_, ls', rfl, k2, k3.trans h2, rfl, fun _ => ?_, ⟨v1.2, fun p hp => ?_⟩, rfl, ?_⟩
      · simp only [Pc.held]
        perms [k4]
      · rw [k5 p (v1.1 p hp)]
        exact v2 p (by simp [hp])
      · intro o' ho hr
        simp only [Pc.op, Option.some.injEq] at ho
        subst ho
        simp [Op.removal] at hr

/-- A `take` of a key which is in the container, so far. -/
def OnTrack (k : K) (ls : List (List (K × V))) : Pc K V → Prop
  | .start o => o = .take k ∧ HasKey ls.flatten k
  | .taking o todo out => o = .take k ∧
    ((todo = [k] ∧ out = [] ∧ HasKey ls.flatten k) ∨ (todo = [] ∧ out ≠ []))
  | .removing o _ _ _ todo _ => o = .take k ∧ todo = []
  | .ret o r => o = .take k ∧ ∃ e, r = .opt (some e)
  | _ => False

theorem next_onTrack {k : K} {s s' : ByteStream} {ls : List (List (K × V))}
    (h1 : Streams cd 0 s.stream ls) {p p' : Pc K V} (hv : Valid ls p)
    (ht : OnTrack k ls p) (h : next cd s p = some (.inl p', s')) :
    ∃ ls', Streams cd 0 s'.stream ls' ∧ OnTrack k ls' p' := by
  cases p with
  | start o =>
    obtain ⟨rfl, hk⟩ := ht
    simp only [next, begin, Res.pure_eq, Option.some.injEq, Prod.mk.injEq, Sum.inl.injEq] at h
    obtain ⟨rfl, rfl⟩ := h
    exact ⟨ls, h1, rfl, Or.inl ⟨rfl, rfl, hk⟩⟩
  | taking o todo out =>
    obtain ⟨rfl, ⟨rfl, rfl, hk⟩ | ⟨rfl, hne⟩⟩ := ht
    · rcases h1.find k with ⟨g, hn⟩ | ⟨a, j, l, e, g, g2, g3, g4⟩
      · exact absurd hk hn
      · simp only [next, g, Option.some.injEq, Prod.mk.injEq, Sum.inl.injEq] at h
        obtain ⟨rfl, rfl⟩ := h
        exact ⟨ls, h1, rfl, rfl⟩
    · simp only [next, Option.some.injEq, Prod.mk.injEq, Sum.inl.injEq] at h
      obtain ⟨rfl, rfl⟩ := h
      refine ⟨ls, h1, rfl, ?_⟩
      cases out with
      | nil => exact absurd rfl hne
      | cons e out => exact ⟨e, rfl⟩
  | removing o k' i j todo out =>
    obtain ⟨rfl, rfl⟩ := ht
    obtain ⟨-, e, g1, g2⟩ := hv
    obtain ⟨st, ls', k1, k2, k3, k4, -⟩ := removeAt_at h1 g1
    simp only [next, k1, Option.some.injEq, Prod.mk.injEq, Sum.inl.injEq] at h
    obtain ⟨rfl, rfl⟩ := h
    exact ⟨ls', k2, rfl, Or.inr ⟨rfl, by simp⟩⟩
  | ret o r => simp [next] at h
  | idle => exact ht.elim
  | dead => exact ht.elim
  | push l todo t out => exact ht.elim
  | pop n todo out => exact ht.elim


/-! ### Runs -/

/-- The elements given to `push`. -/
def given (l : List (Ev K V)) : List (K × V) :=
  l.flatMap fun e => match e with | .called _ o => o.given | _ => []

/-- The elements returned. -/
def returned (l : List (Ev K V)) : List (K × V) :=
  l.flatMap fun e => match e with | .returned _ _ r => r.elements | _ => []

/-- The threads in a call that removes elements, after one more event. -/
def removers1 (acc : List Nat) : Ev K V → List Nat
  | .called i o => if o.removal then i :: acc else acc
  | .returned i _ _ => acc.filter (· ≠ i)
  | .panicked i _ => acc.filter (· ≠ i)
  | .silent _ => acc

/-- The threads in a call that removes elements. -/
def removers (l : List (Ev K V)) : List Nat := l.foldl removers1 []

/-- At any time at most one thread is in a call that removes elements. -/
def OneRemover (l : List (Ev K V)) : Prop := ∀ l', l' <+: l → (removers l').length ≤ 1

/-- `flush` is not called. -/
def NoFlush (l : List (Ev K V)) : Prop := ∀ i, Ev.called i .flush ∉ l

theorem step_cases {s s' : State K V} {i : Nat} {a : Act K V} {e : Ev K V}
    (h : step cd s i a = some (s', e)) :
    (∃ o, s.threads[i]? = some .idle ∧ s' = ⟨s.cont, s.threads.set i (.start o)⟩ ∧ e = .called i o) ∨
    (∃ o r, s.threads[i]? = some (.ret o r) ∧ s' = ⟨s.cont, s.threads.set i .idle⟩ ∧ e = .returned i o r) ∨
    (∃ p p' c, s.threads[i]? = some p ∧ next cd s.cont p = some (.inl p', c) ∧
      s' = ⟨c, s.threads.set i p'⟩ ∧ e = .silent i) ∨
    (∃ p o c, s.threads[i]? = some p ∧ next cd s.cont p = some (.inr o, c) ∧
      s' = ⟨c, s.threads.set i .dead⟩ ∧ e = .panicked i o) := by
  unfold step at h
  split at h
  · rename_i h1
    simp only [Option.some.injEq, Prod.mk.injEq] at h
    exact Or.inl ⟨_, h1, h.1.symm, h.2.symm⟩
  · rename_i h1
    simp only [Option.some.injEq, Prod.mk.injEq] at h
    exact Or.inr (Or.inl ⟨_, _, h1, h.1.symm, h.2.symm⟩)
  · rename_i h1
    split at h
    · rename_i h2
      simp only [Option.some.injEq, Prod.mk.injEq] at h
      exact Or.inr (Or.inr (Or.inl ⟨_, _, _, h1, h2, h.1.symm, h.2.symm⟩))
    · rename_i h2
      simp only [Option.some.injEq, Prod.mk.injEq] at h
      exact Or.inr (Or.inr (Or.inr ⟨_, _, _, h1, h2, h.1.symm, h.2.symm⟩))
    · simp at h
  · simp at h

omit [LinearOrder K] [LinearOrder V] in
theorem sum_set {T : List Nat} {i a : Nat} (b : Nat) (h : T[i]? = some a) :
    (T.set i b).sum + a = T.sum + b := by
  induction T generalizing i with
  | nil => simp at h
  | cons x T ih =>
    cases i with
    | zero => simp at h; subst h; simp; omega
    | succ i => simp at h; have := ih h; simp; omega

omit [LinearOrder K] [LinearOrder V] in
theorem sum_le {T : List Nat} {C : Nat} (h : ∀ x ∈ T, x ≤ C) : T.sum ≤ T.length * C := by
  induction T with
  | nil => simp
  | cons x T ih =>
    have h1 := h x (by simp)
    have h2 := ih fun y hy => h y (by simp [hy])
    simp only [List.sum_cons, List.length_cons, Nat.add_mul, Nat.one_mul]
    omega

omit [LinearOrder K] [LinearOrder V] in
theorem mem_set_cases {T : List (Pc K V)} {i : Nat} {q x : Pc K V} (h : x ∈ T.set i q) : x ∈ T ∨ x = q :=
  List.mem_or_eq_of_mem_set h

/-- The states and histories reached, whatever the threads do. -/
structure Inv (cd : Codec (K × V)) (C n : Nat) (l : List (Ev K V)) (s : State K V)
    (ls : List (List (K × V))) : Prop where
  streams : Streams cd 0 s.cont.stream ls
  len : ls.length = 64
  cap : s.cont.capacity = C
  threads : s.threads.length = n
  wf : ∀ p ∈ s.threads, p.Wf
  given : (ls.flatten ++ (s.threads.map Pc.held).flatten ++ returned l).Subperm (given l)
  bound : total (csz cd) ls.flatten + (s.threads.map (Pc.slack C)).sum ≤ n * C
  panics : ∀ i o, Ev.panicked i o ∈ l → o.Removes

omit [LinearOrder K] [LinearOrder V] in
theorem Inv.new (C n : Nat) : Inv cd C n [] (State.new (ByteStream.new C) n) (List.replicate 64 []) where
  streams := ByteStream.new_streams 64 0
  len := by simp
  cap := rfl
  threads := by simp [State.new]
  wf := by
    intro p hp
    simp only [State.new, List.mem_replicate] at hp
    rw [hp.2]; trivial
  given := by simp [State.new, Pc.held, returned, SharedStream.given]
  bound := by simp [State.new, Pc.slack]
  panics := by simp

omit [LinearOrder K] [LinearOrder V] in
/-- One step, from what changes. -/
theorem Inv.update {C n : Nat} {l : List (Ev K V)} {s : State K V} {ls ls' : List (List (K × V))}
    (h : Inv cd C n l s ls) {i : Nat} {p q : Pc K V} {c : ByteStream} {e : Ev K V}
    (hp : s.threads[i]? = some p) (h1 : Streams cd 0 c.stream ls') (h2 : ls'.length = 64)
    (h3 : c.capacity = C) (hq : q.Wf)
    (hg : (ls'.flatten ++ q.held ++ returned [e]).Subperm (ls.flatten ++ p.held ++ SharedStream.given [e]))
    (hb : total (csz cd) ls'.flatten + q.slack C ≤ total (csz cd) ls.flatten + p.slack C ∨
      total (csz cd) ls'.flatten + q.slack C ≤ C)
    (he : ∀ j o, e = .panicked j o → o.Removes) :
    Inv cd C n (l ++ [e]) ⟨c, s.threads.set i q⟩ ls' where
  streams := h1
  len := h2
  cap := h3
  threads := by simp [h.threads]
  wf := by
    intro x hx
    rcases mem_set_cases hx with hx | rfl
    · exact h.wf x hx
    · exact hq
  given := by
    have hT : (s.threads.map Pc.held)[i]? = some p.held := by simp [hp]
    have hperm := ByteStream.flatten_set_perm (d := q.held) (d' := p.held) (l' := q.held) hT
      List.perm_append_comm
    have h0 := h.given
    have hr : returned (l ++ [e]) = returned l ++ returned [e] := by simp [returned]
    have hgv : SharedStream.given (l ++ [e]) = SharedStream.given l ++ SharedStream.given [e] := by
      simp [SharedStream.given]
    simp only [List.map_set]
    rw [hr, hgv]
    subperms [h0, hg] [hperm]
  bound := by
    have hT : (s.threads.map (Pc.slack C))[i]? = some (p.slack C) := by simp [hp]
    have h0 := h.bound
    have hs := sum_set (q.slack C) hT
    simp only [List.map_set]
    rcases hb with hb | hb
    · omega
    · have hs' := sum_set C hT
      have hle : ((s.threads.map (Pc.slack C)).set i C).sum ≤
          ((s.threads.map (Pc.slack C)).set i C).length * C := by
        apply sum_le
        intro x hx
        rcases List.mem_or_eq_of_mem_set hx with hx | rfl
        · obtain ⟨y, -, rfl⟩ := List.mem_map.1 hx
          exact y.slack_le C
        · exact Nat.le_refl _
      simp only [List.length_set, List.length_map, h.threads] at hle
      omega
  panics := by
    intro j o hj
    rcases List.mem_append.1 hj with hj | hj
    · exact h.panics j o hj
    · exact he j o (List.mem_singleton.1 hj).symm

theorem Inv.step (hsmall : Small cd) {C n : Nat} {l : List (Ev K V)} {s s' : State K V}
    {ls : List (List (K × V))} (h : Inv cd C n l s ls) {i : Nat} {a : Act K V} {e : Ev K V}
    (hs : step cd s i a = some (s', e)) : ∃ ls', Inv cd C n (l ++ [e]) s' ls' := by
  rcases step_cases hs with ⟨o, hp, rfl, rfl⟩ | ⟨o, r, hp, rfl, rfl⟩ | ⟨p, p', c, hp, hn, rfl, rfl⟩ |
    ⟨p, o, c, hp, hn, rfl, rfl⟩
  · refine ⟨ls, h.update hp h.streams h.len h.cap trivial ?_ (Or.inl ?_) (by simp)⟩
    · exact sub_eq (by simp [returned, SharedStream.given, Pc.held])
    · simp [Pc.slack]
  · refine ⟨ls, h.update hp h.streams h.len h.cap trivial ?_ (Or.inl ?_) (by simp)⟩
    · exact sub_eq (by simp [returned, SharedStream.given, Pc.held])
    · simp [Pc.slack]
  · obtain ⟨ls', g1, g2, g3, g4, g5, g6, g7⟩ :=
      next_spec hsmall h.streams h.len (h.wf p (List.mem_of_getElem? hp)) hn
    refine ⟨ls', h.update hp g1 g2 (g3.trans h.cap) g6 ?_ ?_ (by simp)⟩
    · simpa [returned, SharedStream.given, after] using g4
    · rw [h.cap] at g5; exact g5
  · obtain ⟨ls', g1, g2, g3, g4, g5, g6, g7⟩ :=
      next_spec hsmall h.streams h.len (h.wf p (List.mem_of_getElem? hp)) hn
    refine ⟨ls', h.update hp g1 g2 (g3.trans h.cap) trivial ?_ ?_ ?_⟩
    · simpa [returned, SharedStream.given, after, Pc.held] using g4
    · rw [h.cap] at g5; exact g5
    · rintro j o' h'; cases h'; exact g6

theorem Run.inv (hsmall : Small cd) {C n : Nat} {l : List (Ev K V)} {s : State K V}
    (h : Run cd (.new (ByteStream.new C) n) l s) : ∃ ls, Inv cd C n l s ls := by
  induction h with
  | nil => exact ⟨_, Inv.new C n⟩
  | snoc _ hs ih =>
    obtain ⟨ls, ih⟩ := ih
    exact ih.step hsmall hs

/-! ### Runs where nobody else removes -/

/-- The states and histories reached when at most one thread removes elements at a time. -/
structure Exact (cd : Codec (K × V)) (l : List (Ev K V)) (s : State K V)
    (ls : List (List (K × V))) : Prop where
  streams : Streams cd 0 s.cont.stream ls
  len : ls.length = 64
  valid : ∀ p ∈ s.threads, Valid ls p
  called : ∀ i p o, s.threads[i]? = some p → p.op = some o → Ev.called i o ∈ l
  removers : ∀ i p o, s.threads[i]? = some p → p.op = some o → o.removal = true → i ∈ removers l
  given : NoFlush l → (ls.flatten ++ (s.threads.map Pc.held).flatten ++ returned l).Perm (given l)
  panics : ∀ i o, Ev.panicked i o ∉ l
  answers : ∀ i o r, Ev.returned i o r ∈ l → Answer o r

omit [LinearOrder K] [LinearOrder V] in
theorem Exact.new (C n : Nat) : Exact cd [] (State.new (ByteStream.new C) n) (List.replicate 64 []) where
  streams := ByteStream.new_streams 64 0
  len := by simp
  valid := by
    intro p hp
    simp only [State.new, List.mem_replicate] at hp
    rw [hp.2]; trivial
  called := by
    intro i p o hp ho
    have := List.mem_of_getElem? hp
    simp only [State.new, List.mem_replicate] at this
    rw [this.2] at ho; simp [Pc.op] at ho
  removers := by
    intro i p o hp ho
    have := List.mem_of_getElem? hp
    simp only [State.new, List.mem_replicate] at this
    rw [this.2] at ho; simp [Pc.op] at ho
  given := by intro _; simp [State.new, Pc.held, returned, SharedStream.given]
  panics := by simp
  answers := by simp

omit [LinearOrder K] [LinearOrder V] in
theorem removers_snoc (l : List (Ev K V)) (e : Ev K V) :
    removers (l ++ [e]) = removers1 (removers l) e := by simp [removers]

omit [LinearOrder K] [LinearOrder V] in
theorem get_set {T : List (Pc K V)} {i j : Nat} {q x p : Pc K V} (hp : T[i]? = some p)
    (h : (T.set i q)[j]? = some x) : (j = i ∧ x = q) ∨ (j ≠ i ∧ T[j]? = some x) := by
  by_cases hj : j = i
  · subst hj
    have : j < T.length := by
      by_contra hc; rw [List.getElem?_eq_none (by omega)] at hp; simp at hp
    rw [List.getElem?_set_self this] at h
    exact Or.inl ⟨rfl, by simpa using h.symm⟩
  · rw [List.getElem?_set_ne (fun h => hj h.symm)] at h
    exact Or.inr ⟨hj, h⟩

omit [LinearOrder K] [LinearOrder V] in
theorem one_of_length {l : List Nat} (h : l.length ≤ 1) {i j : Nat} (hi : i ∈ l) (hj : j ∈ l) : i = j := by
  match l, h with
  | [x], _ => simp at hi hj; omega

omit [LinearOrder K] [LinearOrder V] in
/-- Threads other than the one that moves keep the right places. -/
theorem Exact.others {l : List (Ev K V)} {s : State K V} {ls ls' : List (List (K × V))}
    (h : Exact cd l s ls) (hone : (SharedStream.removers l).length ≤ 1) {i : Nat} {p : Pc K V}
    (hp : s.threads[i]? = some p)
    (hg : ∀ o, p.op = some o → o.removal = false → Grow ls ls' ∧ ls.flatten ⊆ ls'.flatten)
    (hn : p.op = none → ls' = ls) :
    ∀ j x, j ≠ i → s.threads[j]? = some x → Valid ls' x ∧ ∀ k, OnTrack k ls x → OnTrack k ls' x := by
  intro j x hj hx
  have hv := h.valid x (List.mem_of_getElem? hx)
  have key : (Grow ls ls' ∧ ls.flatten ⊆ ls'.flatten) ∨
      (∃ o, p.op = some o ∧ o.removal = true) := by
    cases ho : p.op with
    | none => left; rw [hn ho]; exact ⟨.refl _, fun _ h => h⟩
    | some o =>
      cases hr : o.removal with
      | false => exact Or.inl (hg o ho hr)
      | true => exact Or.inr ⟨o, rfl, hr⟩
  rcases key with ⟨k1, k2⟩ | ⟨o, ho, hr⟩
  · refine ⟨hv.grow k1, fun k hk => ?_⟩
    have hmono : HasKey ls.flatten k → HasKey ls'.flatten k := by
      rintro ⟨e, he⟩; exact ⟨e, k2 he⟩
    cases x with
    | start o => exact ⟨hk.1, hmono hk.2⟩
    | taking o todo out =>
      obtain ⟨a, ⟨b, c, d⟩ | b⟩ := hk
      · exact ⟨a, Or.inl ⟨b, c, hmono d⟩⟩
      · exact ⟨a, Or.inr b⟩
    | removing o k' i j todo out => exact hk
    | ret o r => exact hk
    | idle => exact hk
    | dead => exact hk
    | push l todo t out => exact hk
    | pop n todo out => exact hk
  · have hi := h.removers i p o hp ho hr
    have hnr : ∀ o', x.op = some o' → o'.removal = false := by
      intro o' ho'
      by_contra hc
      exact hj (one_of_length hone (h.removers j x o' hx ho' (by simpa using hc)) hi)
    cases x with
    | taking o' todo out =>
      obtain ⟨pre, ks, w1, -⟩ := hv
      have := hnr o' rfl
      simp [removal_of_keys w1] at this
    | removing o' k' a b todo out =>
      obtain ⟨⟨pre, ks, w1, -⟩, -⟩ := hv
      have := hnr o' rfl
      simp [removal_of_keys w1] at this
    | pop n todo out =>
      have := hnr _ rfl
      simp [Op.removal] at this
    | start o' =>
      refine ⟨trivial, fun k hk => ?_⟩
      have h1 := hk.1
      subst h1
      have := hnr _ rfl
      simp [Op.removal] at this
    | ret o' r => exact ⟨hv, fun k hk => hk⟩
    | idle => exact ⟨trivial, fun k hk => hk⟩
    | dead => exact ⟨trivial, fun k hk => hk⟩
    | push l todo t out => exact ⟨trivial, fun k hk => hk⟩

/-- One step, from what changes. -/
theorem Exact.update {l : List (Ev K V)} {s : State K V} {ls ls' : List (List (K × V))}
    (h : Exact cd l s ls) (hone : (SharedStream.removers l).length ≤ 1)
    {i : Nat} {p q : Pc K V} {c : ByteStream} {e : Ev K V}
    (hp : s.threads[i]? = some p) (h1 : Streams cd 0 c.stream ls') (h2 : ls'.length = 64)
    (hv : Valid ls' q)
    (hg : ∀ o, p.op = some o → o.removal = false → Grow ls ls' ∧ ls.flatten ⊆ ls'.flatten)
    (hn : p.op = none → ls' = ls)
    (hperm : NoFlush (l ++ [e]) →
      (ls'.flatten ++ q.held ++ returned [e]).Perm (ls.flatten ++ p.held ++ SharedStream.given [e]))
    (hcalled : ∀ o, q.op = some o → Ev.called i o ∈ l ++ [e])
    (hrem : ∀ o, q.op = some o → o.removal = true → i ∈ SharedStream.removers (l ++ [e]))
    (hkeep : ∀ j, j ≠ i → j ∈ SharedStream.removers l → j ∈ SharedStream.removers (l ++ [e]))
    (he : ∀ j o, e ≠ .panicked j o) (ha : ∀ j o r, e = .returned j o r → Answer o r) :
    Exact cd (l ++ [e]) ⟨c, s.threads.set i q⟩ ls' where
  streams := h1
  len := h2
  valid := by
    intro x hx
    obtain ⟨j, hj⟩ := List.mem_iff_getElem?.1 hx
    rcases get_set hp hj with ⟨-, rfl⟩ | ⟨hne, hj⟩
    · exact hv
    · exact (h.others hone hp hg hn j x hne hj).1
  called := by
    intro j x o hj ho
    rcases get_set hp hj with ⟨rfl, rfl⟩ | ⟨hne, hj⟩
    · exact hcalled o ho
    · exact List.mem_append_left _ (h.called j x o hj ho)
  removers := by
    intro j x o hj ho hr
    rcases get_set hp hj with ⟨rfl, rfl⟩ | ⟨hne, hj⟩
    · exact hrem o ho hr
    · exact hkeep j hne (h.removers j x o hj ho hr)
  given := by
    intro hnf
    have hT : (s.threads.map Pc.held)[i]? = some p.held := by simp [hp]
    have hset := ByteStream.flatten_set_perm (d := q.held) (d' := p.held) (l' := q.held) hT
      List.perm_append_comm
    have h0 := h.given fun j hj => hnf j (List.mem_append_left _ hj)
    have hr : returned (l ++ [e]) = returned l ++ returned [e] := by simp [returned]
    have hgv : SharedStream.given (l ++ [e]) = SharedStream.given l ++ SharedStream.given [e] := by
      simp [SharedStream.given]
    have hpp := hperm hnf
    simp only [List.map_set]
    rw [hr, hgv]
    perms [h0, hpp, hset]
  panics := by
    intro j o hj
    rcases List.mem_append.1 hj with hj | hj
    · exact h.panics j o hj
    · exact he j o (List.mem_singleton.1 hj).symm
  answers := by
    intro j o r hj
    rcases List.mem_append.1 hj with hj | hj
    · exact h.answers j o r hj
    · exact ha j o r (List.mem_singleton.1 hj).symm

theorem Exact.step (hsmall : Small cd) {l : List (Ev K V)} {s s' : State K V}
    {ls : List (List (K × V))} (h : Exact cd l s ls) (hone : (SharedStream.removers l).length ≤ 1)
    {i : Nat} {a : Act K V} {e : Ev K V}
    (hs : step cd s i a = some (s', e)) : ∃ ls', Exact cd (l ++ [e]) s' ls' := by
  rcases step_cases hs with ⟨o, hp, rfl, rfl⟩ | ⟨o, r, hp, rfl, rfl⟩ | ⟨p, p', c, hp, hn, rfl, rfl⟩ |
    ⟨p, o, c, hp, hn, rfl, rfl⟩
  · refine ⟨ls, h.update hone hp h.streams h.len trivial (by simp [Pc.op]) (fun _ => rfl) (fun _ => ?_)
      ?_ ?_ ?_ (by simp) (by simp)⟩
    · simp [returned, SharedStream.given, Pc.held]
    · intro o' ho; simp only [Pc.op, Option.some.injEq] at ho; subst ho; simp
    · intro o' ho hr
      simp only [Pc.op, Option.some.injEq] at ho
      subst ho
      simp [removers_snoc, removers1, hr]
    · intro j hj hm
      rw [removers_snoc, removers1]
      split
      · simp [hm]
      · exact hm
  · refine ⟨ls, h.update hone hp h.streams h.len trivial (fun _ _ _ => ⟨.refl _, fun _ h => h⟩)
      (fun _ => rfl) (fun _ => ?_) (by simp [Pc.op]) (by simp [Pc.op]) ?_ (by simp) ?_⟩
    · simp [returned, SharedStream.given, Pc.held]
    · intro j hj hm
      rw [removers_snoc, removers1]
      simp [hm, hj]
    · rintro j o' r' h'; cases h'
      exact h.valid _ (List.mem_of_getElem? hp)
  · obtain ⟨q, ls', g0, g1, g2, g3, g4, g5, g6, g7⟩ :=
      next_exact hsmall h.streams h.len (h.valid p (List.mem_of_getElem? hp)) hn
    cases g0
    have hop : p.op ≠ none := by
      intro hc
      cases p <;> simp [Pc.op] at hc <;> simp [next] at hn
    refine ⟨ls', h.update hone hp g1 g2 g5 g7 (fun hc => absurd hc hop) (fun hnf => ?_) ?_ ?_ ?_
      (by simp) (by simp)⟩
    · have := g4 fun hc => hnf i (List.mem_append_left _ (h.called i p _ hp hc))
      simpa [returned, SharedStream.given] using this
    · intro o ho
      exact List.mem_append_left _ (h.called i p o hp (g6 ▸ ho))
    · intro o ho hr
      rw [removers_snoc]
      exact h.removers i p o hp (g6 ▸ ho) hr
    · intro j hj hm
      rw [removers_snoc]
      exact hm
  · obtain ⟨q, ls', g0, -⟩ :=
      next_exact hsmall h.streams h.len (h.valid p (List.mem_of_getElem? hp)) hn
    cases g0

theorem Run.exact (hsmall : Small cd) {C n : Nat} {l : List (Ev K V)} {s : State K V}
    (h : Run cd (.new (ByteStream.new C) n) l s) (hone : OneRemover l) : ∃ ls, Exact cd l s ls := by
  induction h with
  | nil => exact ⟨_, Exact.new C n⟩
  | snoc _ hs ih =>
    obtain ⟨ls, ih⟩ := ih fun l' hl' => hone l' (hl'.trans (List.prefix_append _ _))
    exact ih.step hsmall (hone _ (List.prefix_append _ _)) hs

/-- A thread on the track of a key that is there stays on it. -/
theorem Exact.onTrack (hsmall : Small cd) {l : List (Ev K V)} {s s' : State K V}
    {ls : List (List (K × V))} (h : Exact cd l s ls) (hone : (SharedStream.removers l).length ≤ 1)
    {i j : Nat} {a : Act K V} {e : Ev K V} {k : K} {x : Pc K V} (hx : s.threads[j]? = some x)
    (ht : OnTrack k ls x) (hs : SharedStream.step cd s i a = some (s', e)) :
    (∃ o r, e = .returned j o r ∧ x = .ret o r) ∨
    ∃ ls' x', Exact cd (l ++ [e]) s' ls' ∧ s'.threads[j]? = some x' ∧ OnTrack k ls' x' := by
  obtain ⟨ls', hE⟩ := h.step hsmall hone hs
  rcases step_cases hs with ⟨o, hp, rfl, rfl⟩ | ⟨o, r, hp, rfl, rfl⟩ | ⟨p, p', c, hp, hn, rfl, rfl⟩ |
    ⟨p, o, c, hp, hn, rfl, rfl⟩
  · have hls : ls' = ls := by rw [← hE.streams.stored, ← h.streams.stored]
    subst hls
    by_cases hj : j = i
    · subst hj; rw [hp] at hx; cases hx; exact ht.elim
    · exact Or.inr ⟨ls', x, hE, by rw [List.getElem?_set_ne (fun h => hj h.symm)]; exact hx, ht⟩
  · have hls : ls' = ls := by rw [← hE.streams.stored, ← h.streams.stored]
    subst hls
    by_cases hj : j = i
    · subst hj; rw [hp] at hx; cases hx; exact Or.inl ⟨_, _, rfl, rfl⟩
    · exact Or.inr ⟨ls', x, hE, by rw [List.getElem?_set_ne (fun h => hj h.symm)]; exact hx, ht⟩
  · right
    by_cases hj : j = i
    · subst hj
      rw [hp] at hx
      obtain rfl : p = x := by simpa using hx
      obtain ⟨ls2, g1, g2⟩ := next_onTrack h.streams (h.valid p (List.mem_of_getElem? hp)) ht hn
      have hls : ls' = ls2 := by rw [← hE.streams.stored, ← g1.stored]
      subst hls
      have hlt : j < s.threads.length := by
        by_contra hc; rw [List.getElem?_eq_none (by omega)] at hp; simp at hp
      exact ⟨ls', p', hE, List.getElem?_set_self hlt, g2⟩
    · obtain ⟨q, ls2, g0, g1, g2, g3, g4, g5, g6, g7⟩ :=
        next_exact hsmall h.streams h.len (h.valid p (List.mem_of_getElem? hp)) hn
      have hls : ls' = ls2 := by rw [← hE.streams.stored, ← g1.stored]
      subst hls
      have hop : p.op ≠ none := by
        intro hc
        cases p <;> simp [Pc.op] at hc <;> simp [next] at hn
      exact ⟨ls', x, hE, by rw [List.getElem?_set_ne (fun h => hj h.symm)]; exact hx,
        (h.others hone hp g7 (fun hc => absurd hc hop) j x hj hx).2 k ht⟩
  · obtain ⟨q, ls2, g0, -⟩ :=
      next_exact hsmall h.streams h.len (h.valid p (List.mem_of_getElem? hp)) hn
    cases g0

end
end Byoc.SharedStream
