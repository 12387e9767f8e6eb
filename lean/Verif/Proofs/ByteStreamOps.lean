import Verif.Proofs.ByteStream

/-!
# ByteStream: calls
-/

namespace Byoc
namespace ByteStream

open IOVec

variable {K V : Type}

/-- Elements are serialised in at most `2 ^ 63` bytes. -/
def Small (cd : Codec (K × V)) : Prop := ∀ e b, cd.enc e = some b → b.length ≤ 2 ^ 63

/-- The elements the streams decode to. -/
def stored (cd : Codec (K × V)) (s : ByteStream) : List (K × V) :=
  (s.stream.map fun o => match items cd o with | .ok l => l | .panic => []).flatten

/-- States of a `ByteStream` reached by its calls. -/
def Inv (cd : Codec (K × V)) (s : ByteStream) : Prop :=
  ∃ ls, Streams cd 0 s.stream ls ∧ ls.length = 64 ∧ total (csz cd) ls.flatten ≤ s.capacity

variable {cd : Codec (K × V)}

theorem Streams.stored {i : Nat} {st : List (Option IOVec)} {ls : List (List (K × V))}
    (h : Streams cd i st ls) :
    (st.map fun o => match items cd o with | .ok l => l | .panic => []) = ls := by
  induction h with
  | nil => rfl
  | cons hg _ ih => rw [List.map_cons, ih, hg.items]

theorem stored_eq {s : ByteStream} {ls : List (List (K × V))} (h : Streams cd 0 s.stream ls) :
    stored cd s = ls.flatten := by rw [ByteStream.stored, h.stored]

theorem Inv.size {s : ByteStream} (h : Inv cd s) : s.size = total (csz cd) (stored cd s) := by
  obtain ⟨ls, h1, -, -⟩ := h
  rw [stored_eq h1, ByteStream.size, h1.size]

theorem Inv.bounded {s : ByteStream} (h : Inv cd s) : s.size ≤ s.capacity := by
  obtain ⟨ls, h1, -, h3⟩ := h
  rw [ByteStream.size, h1.size]; exact h3

theorem new_streams (n i : Nat) : Streams cd i (List.replicate n none) (List.replicate n []) := by
  induction n generalizing i with
  | zero => exact .nil i
  | succ n ih => exact .cons rfl (ih (i + 1))

theorem new_inv (n : Nat) : Inv cd (ByteStream.new n) :=
  ⟨List.replicate 64 [], new_streams 64 0, by simp, by simp⟩

theorem new_stored (n : Nat) : stored cd (ByteStream.new n) = [] := by
  rw [stored_eq (new_streams 64 0)]; simp

/-! ### push -/

theorem pushLoop_spec (hsmall : Small cd) (l : List (K × V)) : ∀ (t : Nat) (s : ByteStream)
    (ls : List (List (K × V))), Streams cd 0 s.stream ls → ls.length = 64 →
    t = total (csz cd) ls.flatten → t ≤ s.capacity →
    ∃ out s' ls', pushLoop cd l t s = .ok (out, s') ∧ Streams cd 0 s'.stream ls' ∧
      ls'.length = 64 ∧ s'.capacity = s.capacity ∧ total (csz cd) ls'.flatten ≤ s.capacity ∧
      t ≤ total (csz cd) ls'.flatten ∧
      (ls'.flatten ++ out).Perm (ls.flatten ++ l) ∧
      (∀ e ∈ out, e ∈ l ∧ (cd.enc e = none ∨ s.capacity < csz cd e + total (csz cd) ls'.flatten)) ∧
      ((∀ e ∈ l, cd.enc e ≠ none) → t + total (csz cd) l ≤ s.capacity → out = []) := by
  induction l with
  | nil =>
    intro t s ls h1 h2 h3 h4
    exact ⟨[], s, ls, rfl, h1, h2, rfl, h3 ▸ h4, by omega, by simp, by simp, by simp⟩
  | cons e l ih =>
    intro t s ls h1 h2 h3 h4
    have reject : ∀ (hrej : cd.enc e = none ∨ s.capacity < csz cd e + t),
        ∃ out s' ls', (do let (out, s) ← pushLoop cd l t s; pure (e :: out, s)) = .ok (out, s') ∧
          Streams cd 0 s'.stream ls' ∧
          ls'.length = 64 ∧ s'.capacity = s.capacity ∧ total (csz cd) ls'.flatten ≤ s.capacity ∧
          t ≤ total (csz cd) ls'.flatten ∧
          (ls'.flatten ++ out).Perm (ls.flatten ++ e :: l) ∧
          (∀ x ∈ out, x ∈ e :: l ∧
            (cd.enc x = none ∨ s.capacity < csz cd x + total (csz cd) ls'.flatten)) ∧
          ((∀ x ∈ e :: l, cd.enc x ≠ none) → t + total (csz cd) (e :: l) ≤ s.capacity → out = []) := by
      intro hrej
      obtain ⟨out, s', ls', g1, g2, g3, g4, g5, g6, g7, g8, -⟩ := ih t s ls h1 h2 h3 h4
      refine ⟨e :: out, s', ls', by simp [g1], g2, g3, g4, g5, g6, ?_, ?_, ?_⟩
      · perms [g7]
      · intro x hx
        rcases List.mem_cons.1 hx with rfl | hx
        · refine ⟨by simp, ?_⟩
          rcases hrej with h | h
          · exact Or.inl h
          · exact Or.inr (by omega)
        · exact ⟨by simp [(g8 x hx).1], (g8 x hx).2⟩
      · intro hall hfit
        exfalso
        rcases hrej with h | h
        · exact hall e (by simp) h
        · rw [total_cons] at hfit; omega
    unfold pushLoop
    cases henc : cd.enc e with
    | none => simp only; exact reject (Or.inl henc)
    | some b =>
      simp only
      obtain ⟨i, c1, c2, c3⟩ := chunkSize_spec b.length (hsmall e b henc)
      have hcls : Class cd i e := ⟨b, henc, c1⟩
      have hsz := hcls.csz
      simp only [c1, Res.ok_bind]
      by_cases hfull : 2 ^ i + t > s.capacity
      · rw [if_pos hfull]
        exact reject (Or.inr (by rw [hsz]; exact hfull))
      · rw [if_neg hfull]
        obtain ⟨lst, hl⟩ : ∃ lst, ls[i]? = some lst := ⟨_, List.getElem?_eq_getElem (by omega)⟩
        obtain ⟨o, k1, k2⟩ := h1.get i lst hl
        rw [Nat.zero_add] at k2
        have key : ∃ v', (o.getD ⟨VecStream.new, 2 ^ i⟩).append cd [e] = .ok (true, v') ∧
            Good cd i (some v') (lst ++ [e]) := by
          cases o with
          | none =>
            simp only [Good] at k2; subst k2
            obtain ⟨v', a1, a2, a3⟩ := (Repr.new (cd := cd) (Nat.two_pow_pos i)).append_one e
              ⟨b, henc, c2⟩
            exact ⟨v', a1, a2, ⟨_, a3⟩, by simpa using hcls⟩
          | some v =>
            obtain ⟨q1, ⟨m, q2⟩, q3⟩ := k2
            obtain ⟨v', a1, a2, a3⟩ := q2.append_one e ⟨b, henc, by rw [q1]; exact c2⟩
            refine ⟨v', a1, a2.trans q1, ⟨_, a3⟩, ?_⟩
            intro x hx
            rcases List.mem_append.1 hx with hx | hx
            · exact q3 x hx
            · simp at hx; subst hx; exact hcls
        obtain ⟨v', a1, a2⟩ := key
        simp only [k1, Res.unwrap_some, Res.ok_bind, a1, if_true]
        have hset := h1.set i (some v') (lst ++ [e]) (by rw [Nat.zero_add]; exact a2)
        have hperm : ([e] ++ ls.flatten).Perm ((ls.set i (lst ++ [e])).flatten) := by
          have := flatten_set_perm (d := [e]) (d' := []) (l' := lst ++ [e]) hl
            (by simpa using (List.perm_append_singleton e lst).symm)
          simpa using this
        have htot : t + 2 ^ i = total (csz cd) (ls.set i (lst ++ [e])).flatten := by
          rw [← total_perm _ hperm, total_append, total_cons, total_nil, hsz, h3]; omega
        obtain ⟨out, s', ls', g1, g2, g3, g4, g5, g6, g7, g8, g9⟩ :=
          ih (t + 2 ^ i) { s with stream := s.stream.set i (some v') } _ hset (by simpa using h2) htot
            (by simp only; omega)
        refine ⟨out, s', ls', g1, g2, g3, g4, g5, by omega, ?_, ?_, ?_⟩
        · simp only [List.cons_append, List.nil_append] at hperm
          perms [g7, hperm]
        · intro x hx
          exact ⟨by simp [(g8 x hx).1], (g8 x hx).2⟩
        · intro hall hfit
          refine g9 (fun x hx => hall x (by simp [hx])) ?_
          rw [total_cons, hsz] at hfit
          simp only; omega

theorem push_spec (hsmall : Small cd) (s : ByteStream) (h : Inv cd s) (l : List (K × V)) :
    ∃ out s', push cd s l = .ok (out, s') ∧ Inv cd s' ∧ s'.capacity = s.capacity ∧
      (stored cd s' ++ out).Perm (stored cd s ++ l) ∧
      (∀ e ∈ out, e ∈ l ∧ (cd.enc e = none ∨ s.capacity < csz cd e + s'.size)) ∧
      ((∀ e ∈ l, cd.enc e ≠ none) → s.size + total (csz cd) l ≤ s.capacity → out = []) := by
  obtain ⟨ls, h1, h2, h3⟩ := h
  have hsz : s.size = total (csz cd) ls.flatten := by rw [ByteStream.size, h1.size]
  obtain ⟨out, s', ls', g1, g2, g3, g4, g5, -, g7, g8, g9⟩ :=
    pushLoop_spec hsmall l s.size s ls h1 h2 hsz (by omega)
  have hsz' : s'.size = total (csz cd) ls'.flatten := by rw [ByteStream.size, g2.size]
  refine ⟨out, s', g1, ⟨ls', g2, g3, by omega⟩, g4, ?_, ?_, g9⟩
  · rw [stored_eq g2, stored_eq h1]; exact g7
  · rw [hsz']; exact g8

/-! ### take, pop, contains -/

theorem contains_spec [DecidableEq K] (s : ByteStream) (h : Inv cd s) (k : K) :
    ∃ b, containsGo cd k s.stream = .ok b ∧ (b = true ↔ HasKey (stored cd s) k) := by
  obtain ⟨ls, h1, -, -⟩ := h
  rw [stored_eq h1]
  exact h1.contains k

theorem take_spec [DecidableEq K] (s : ByteStream) (h : Inv cd s) (k : K) :
    ∃ o s', take cd s k = .ok (o, s') ∧ Inv cd s' ∧ s'.capacity = s.capacity ∧
      match o with
      | none => ¬ HasKey (stored cd s) k ∧ (stored cd s').Perm (stored cd s)
      | some e => e.1 = k ∧ (e :: stored cd s').Perm (stored cd s) := by
  obtain ⟨ls, h1, h2, h3⟩ := h
  unfold take
  rcases h1.find k with ⟨f1, f2⟩ | ⟨a, j, l, e, f1, f2, f3, f4⟩
  · refine ⟨none, s, by rw [f1]; rfl, ⟨ls, h1, h2, h3⟩, rfl, ?_⟩
    rw [stored_eq h1]
    exact ⟨f2, List.Perm.refl _⟩
  · rw [Nat.zero_add] at f1
    obtain ⟨st', g1, g2⟩ := h1.removeAt a j l e f2 f3
    have hp : ls.flatten.Perm ([e] ++ (ls.set a (Byoc.swapRemove l j)).flatten) := by
      have := flatten_set_perm (d := []) (d' := [e]) (l' := Byoc.swapRemove l j) f2
        (by simpa using (swapRemove_perm f3).symm)
      simpa using this
    have ht := total_perm (csz cd) hp
    rw [total_append] at ht
    refine ⟨some e, { s with stream := st' }, by simp [f1, g1], ⟨_, g2, by simpa using h2, ?_⟩, rfl,
      f4, ?_⟩
    · simp only; omega
    · have e1 : stored cd { s with stream := st' } = _ := stored_eq g2
      rw [e1, stored_eq h1]
      exact hp.symm

theorem popBy_spec {R : Type} [LinearOrder R] (rank : V → R) (s : ByteStream) (h : Inv cd s) (n : Nat) :
    ∃ out s', popBy cd rank s n = .ok (out, s') ∧ Inv cd s' ∧ s'.capacity = s.capacity ∧
      (stored cd s' ++ out).Perm (stored cd s) ∧
      (s'.size + n ≤ s.size ∨ stored cd s' = []) ∧
      ∀ e ∈ out, ∀ d ∈ stored cd s', rank d.2 ≤ rank e.2 := by
  obtain ⟨ls, h1, h2, h3⟩ := h
  obtain ⟨out, s', ls', g1, g2, g3, g4, g5, g6, g7⟩ := h1.pop rank n
  have ht := total_perm (csz cd) g5
  rw [total_append] at ht
  have hs : s.size = total (csz cd) ls.flatten := by rw [ByteStream.size, h1.size]
  have hs' : s'.size = total (csz cd) ls'.flatten := by rw [ByteStream.size, g3.size]
  refine ⟨out, s', g1, ⟨ls', g3, g4.trans h2, by omega⟩, g2, ?_, ?_, ?_⟩
  · rw [stored_eq g3, stored_eq h1]
    exact List.perm_append_comm.trans g5
  · rw [stored_eq g3]
    rcases g6 with h | h
    · exact Or.inr h
    · exact Or.inl (by omega)
  · rw [stored_eq g3]; exact g7

theorem pop_spec [LinearOrder V] (s : ByteStream) (h : Inv cd s) (n : Nat) :
    ∃ out s', pop cd s n = .ok (out, s') ∧ Inv cd s' ∧ s'.capacity = s.capacity ∧
      (stored cd s' ++ out).Perm (stored cd s) ∧
      (s'.size + n ≤ s.size ∨ stored cd s' = []) ∧
      ∀ e ∈ out, ∀ d ∈ stored cd s', d.2 ≤ e.2 := popBy_spec id s h n

/-! ### take_multiple and flush -/

theorem takeMultipleStream_spec [LinearOrder K] (l : List (K × V)) : ∀ (ks : List K),
    ks.Pairwise (· ≤ ·) →
    (takeMultipleStream l ks).1.Sublist l ∧
    ((takeMultipleStream l ks).1.map Prod.fst ++ (takeMultipleStream l ks).2).Perm ks ∧
    (takeMultipleStream l ks).2.Pairwise (· ≤ ·) ∧
    ∀ k ∈ ks, HasKey l k → HasKey (takeMultipleStream l ks).1 k := by
  induction l with
  | nil => intro ks h; simp [takeMultipleStream, h, HasKey]
  | cons e l ih =>
    intro ks h
    unfold takeMultipleStream
    cases hb : bsearch ks e.1 with
    | none =>
      simp only
      obtain ⟨h1, h2, h3, h4⟩ := ih ks h
      refine ⟨h1.trans (List.sublist_cons_self _ _), h2, h3, ?_⟩
      rintro k hk ⟨v, hv⟩
      rcases List.mem_cons.1 hv with rfl | hv
      · exact absurd hk (bsearch_none h hb)
      · exact h4 k hk ⟨v, hv⟩
    | some i =>
      simp only
      have hi := bsearch_sound hb
      have hp := eraseIdx_perm hi
      have hsort := eraseIdx_sorted i h
      split
      · rename_i hnil
        rw [hnil] at hp
        refine ⟨by simp, by simpa [hnil] using hp, by simp [hnil], ?_⟩
        intro k hk _
        have := hp.symm.subset hk
        simp at this; subst this
        exact ⟨e.2, by simp⟩
      · obtain ⟨h1, h2, h3, h4⟩ := ih _ hsort
        refine ⟨by simpa using h1, ?_, h3, ?_⟩
        · simp only [List.map_cons, List.cons_append]
          perms [h2, hp]
        · rintro k hk ⟨v, hv⟩
          by_cases hke : k = e.1
          · subst hke; exact ⟨e.2, by simp⟩
          · have hk' : k ∈ ks.eraseIdx i := by
              rcases List.mem_cons.1 (hp.symm.subset hk) with h | h
              · exact absurd h hke
              · exact h
            rcases List.mem_cons.1 hv with rfl | hv
            · exact absurd rfl hke
            · obtain ⟨w, hw⟩ := h4 k hk' ⟨v, hv⟩
              exact ⟨w, by simp [hw]⟩

theorem Streams.takeMultipleGo [LinearOrder K] {i : Nat} {st : List (Option IOVec)}
    {ls : List (List (K × V))} (h : Streams cd i st ls) : ∀ ks : List K, ks.Pairwise (· ≤ ·) →
    ∃ out ks', takeMultipleGo cd st ks = .ok (out, ks') ∧ out.Sublist ls.flatten ∧
      (out.map Prod.fst ++ ks').Perm ks ∧ ∀ k ∈ ks, HasKey ls.flatten k → HasKey out k := by
  induction h with
  | nil => intro ks _; exact ⟨[], ks, rfl, by simp, by simp, by simp [HasKey]⟩
  | @cons i o st l ls hg _ ih =>
    intro ks hks
    obtain ⟨h1, h2, h3, h4⟩ := takeMultipleStream_spec l ks hks
    obtain ⟨out, ks', g1, g2, g3, g4⟩ := ih _ h3
    refine ⟨(takeMultipleStream l ks).1 ++ out, ks', by simp [ByteStream.takeMultipleGo, hg.items, g1],
      by simpa using h1.append g2, ?_, ?_⟩
    · rw [List.map_append]
      perms [h2, g3]
    · rintro k hk ⟨v, hv⟩
      rw [List.flatten_cons] at hv
      rcases List.mem_append.1 hv with hv | hv
      · obtain ⟨w, hw⟩ := h4 k hk ⟨v, hv⟩
        exact ⟨w, by simp [hw]⟩
      · rcases List.mem_append.1 (h2.symm.subset hk) with hh | hh
        · obtain ⟨x, hx, rfl⟩ := List.mem_map.1 hh
          exact ⟨x.2, by simp [hx]⟩
        · obtain ⟨w, hw⟩ := g4 k hh ⟨v, hv⟩
          exact ⟨w, by simp [hw]⟩

theorem takeMultiple_spec [LinearOrder K] (s : ByteStream) (h : Inv cd s) (ks : List K) :
    ∃ out ks', takeMultiple cd s ks = .ok (out, ks', s) ∧ out.Sublist (stored cd s) ∧
      (out.map Prod.fst ++ ks').Perm ks ∧ ∀ k ∈ ks, HasKey (stored cd s) k → HasKey out k := by
  obtain ⟨ls, h1, -, -⟩ := h
  obtain ⟨out, ks', g1, g2, g3, g4⟩ := h1.takeMultipleGo (sortKeys ks) (sortKeys_sorted ks)
  refine ⟨out, ks', by simp [takeMultiple, g1], by rw [stored_eq h1]; exact g2,
    g3.trans (sortKeys_perm ks), ?_⟩
  intro k hk hh
  rw [stored_eq h1] at hh
  exact g4 k ((sortKeys_perm ks).symm.subset hk) hh

theorem Streams.flushGo {i : Nat} {st : List (Option IOVec)} {ls : List (List (K × V))}
    (h : Streams cd i st ls) : ∃ out, flushGo cd st = .ok out ∧ out.Sublist ls.flatten := by
  induction h with
  | nil => exact ⟨[], rfl, by simp⟩
  | @cons i o st l ls hg _ ih =>
    obtain ⟨out, h1, h2⟩ := ih
    cases o with
    | none =>
      simp only [Good] at hg; subst hg
      exact ⟨out, by simpa [ByteStream.flushGo] using h1, by simpa using h2⟩
    | some v =>
      obtain ⟨g1, ⟨m, g2⟩, -⟩ := hg
      have := g2.intoIter (by rw [g1]; exact goodChunk_pow i)
      exact ⟨l.drop m ++ out, by simp [ByteStream.flushGo, this, h1],
        by simpa using (List.drop_sublist m l).append h2⟩

theorem flush_streams (st : List (Option IOVec)) (i : Nat) :
    Streams cd i (st.map fun _ => none) (st.map fun _ => []) := by
  induction st generalizing i with
  | nil => exact .nil i
  | cons o st ih => exact .cons rfl (ih (i + 1))

theorem flush_spec (s : ByteStream) (h : Inv cd s) :
    ∃ out s', flush cd s = .ok (out, s') ∧ Inv cd s' ∧ s'.capacity = s.capacity ∧
      stored cd s' = [] ∧ out.Sublist (stored cd s) := by
  obtain ⟨ls, h1, h2, h3⟩ := h
  obtain ⟨out, g1, g2⟩ := h1.flushGo
  have hst : Streams cd 0 (s.stream.map fun _ => none) (s.stream.map fun _ => []) :=
    flush_streams s.stream 0
  have hnil : (s.stream.map fun _ => ([] : List (K × V))).flatten = [] := by
    rw [List.map_const']
    simp
  refine ⟨out, { s with stream := s.stream.map fun _ => none }, by simp [flush, g1],
    ⟨_, hst, ?_, ?_⟩, rfl, ?_, by rw [stored_eq h1]; exact g2⟩
  · rw [List.length_map, h1.length, h2]
  · rw [hnil]; simp
  · have e1 : stored cd { s with stream := s.stream.map fun _ => none } = _ := stored_eq hst
    rw [e1, hnil]

/-! ### get and get_mut -/

theorem items_get {s : ByteStream} {ls : List (List (K × V))} (h1 : Streams cd 0 s.stream ls)
    {a j : Nat} {l : List (K × V)} {e : K × V} (f2 : ls[a]? = some l) (f3 : l[j]? = some e) :
    ∃ v, s.stream[a]? = some (some v) ∧ v.iter cd = .ok l ∧ v.chunk = 2 ^ a ∧
      (∃ m, Repr cd v l m) ∧ ∀ e ∈ l, Class cd a e := by
  obtain ⟨o, k1, k2⟩ := h1.get a l f2
  rw [Nat.zero_add] at k2
  cases o with
  | none => simp only [Good] at k2; subst k2; simp at f3
  | some v =>
    have := k2.items
    obtain ⟨q1, q2, q3⟩ := k2
    exact ⟨v, k1, this, q1, q2, q3⟩

theorem get_spec [DecidableEq K] (s : ByteStream) (h : Inv cd s) (k : K) (touch : V → V) :
    ∃ o, get cd s k touch = .ok (o, s) ∧
      match o with
      | none => ¬ HasKey (stored cd s) k
      | some v => (k, v) ∈ stored cd s := by
  obtain ⟨ls, h1, -, -⟩ := h
  unfold get
  rcases h1.find k with ⟨f1, f2⟩ | ⟨a, j, l, e, f1, f2, f3, f4⟩
  · exact ⟨none, by rw [f1]; rfl, by rw [stored_eq h1]; exact f2⟩
  · rw [Nat.zero_add] at f1
    obtain ⟨v, k1, k2, -⟩ := items_get h1 f2 f3
    refine ⟨some e.2, by simp [f1, k1, ByteStream.items, k2, f3], ?_⟩
    rw [stored_eq h1]
    subst f4
    exact List.mem_flatten.2 ⟨l, List.mem_of_getElem? f2, List.mem_of_getElem? f3⟩

/-- What may be written through a cell: the serialised element stays in the same class of chunks. -/
def SameClass (cd : Codec (K × V)) (f : V → V) : Prop :=
  ∀ i k v, Class cd i (k, v) → Class cd i (k, f v)

theorem getMut_spec [DecidableEq K] (hsmall : Small cd) (s : ByteStream) (h : Inv cd s) (k : K)
    (f : V → V) (hf : SameClass cd f) :
    ∃ o s', getMut cd s k f = .ok (o, s') ∧ Inv cd s' ∧ s'.capacity = s.capacity ∧
      match o with
      | none => ¬ HasKey (stored cd s) k ∧ (stored cd s').Perm (stored cd s)
      | some v => ∃ rest, (stored cd s).Perm ((k, v) :: rest) ∧
          (stored cd s').Perm ((k, f v) :: rest) := by
  obtain ⟨ls, h1, h2, h3⟩ := h
  unfold getMut
  rcases h1.find k with ⟨f1, f2⟩ | ⟨a, j, l, e, f1, f2, f3, f4⟩
  · refine ⟨none, s, by rw [f1]; rfl, ⟨ls, h1, h2, h3⟩, rfl, ?_⟩
    rw [stored_eq h1]
    exact ⟨f2, List.Perm.refl _⟩
  · rw [Nat.zero_add] at f1
    obtain ⟨v, k1, k2, k3, ⟨m, k4⟩, k5⟩ := items_get h1 f2 f3
    obtain ⟨ek, ev⟩ := e
    simp only at f4
    subst f4
    have hc := k5 _ (List.mem_of_getElem? f3)
    have hc' := hf a ek ev hc
    obtain ⟨b', hb', hb2⟩ := hc'
    have hlt : j < l.length := (List.getElem?_eq_some_iff.1 f3).1
    have hble : b'.length ≤ v.chunk := by
      obtain ⟨i', c1, c2, -⟩ := chunkSize_spec b'.length (hsmall _ _ hb')
      rw [hb2] at c1
      injection c1 with c1
      injection c1 with c1 c1'
      rw [k3, c1']; exact c2
    obtain ⟨v', w1, w2, w3⟩ := k4.writeBack j (ek, f ev) hlt ⟨b', hb', hble⟩
    have hset := h1.set a (some v') (l.set j (ek, f ev)) (by
      rw [Nat.zero_add]
      refine ⟨w2.trans k3, ⟨m, w3⟩, ?_⟩
      intro x hx
      rcases List.mem_or_eq_of_mem_set hx with hx | rfl
      · exact k5 x hx
      · exact ⟨b', hb', hb2⟩)
    -- the element replaced
    have hsplit : l = l.take j ++ (ek, ev) :: l.drop (j + 1) := by
      obtain ⟨hj, hj'⟩ := List.getElem?_eq_some_iff.1 f3
      rw [← hj', List.getElem_cons_drop, List.take_append_drop]
    have hsplit' : l.set j (ek, f ev) = l.take j ++ (ek, f ev) :: l.drop (j + 1) := by
      rw [List.set_eq_take_append_cons_drop, if_pos hlt]
    have hp1 : ([] ++ l).Perm ([(ek, ev)] ++ (l.take j ++ l.drop (j + 1))) := by
      conv_lhs => rw [hsplit]
      perms []
    have hp2 : ([(ek, f ev)] ++ (l.take j ++ l.drop (j + 1))).Perm ([] ++ l.set j (ek, f ev)) := by
      rw [hsplit']
      perms []
    let ls0 := ls.set a (l.take j ++ l.drop (j + 1))
    have ha : a < ls.length := (List.getElem?_eq_some_iff.1 f2).1
    have e1 := flatten_set_perm f2 hp1
    have e2 := flatten_set_perm (ls := ls0) (i := a) (by
      simp only [ls0]; exact List.getElem?_set_self ha) hp2
    simp only [ls0, List.set_set] at e2
    refine ⟨some ev, { s with stream := s.stream.set a (some v') }, by simp [f1, k1, k2, f3, w1],
      ⟨_, hset, by simpa using h2, ?_⟩, rfl, ls0.flatten, ?_, ?_⟩
    · have t1 := total_perm (csz cd) e1
      have t2 := total_perm (csz cd) e2
      simp only [List.nil_append, List.cons_append, total_cons, hc.csz] at t1 t2
      have : csz cd (ek, f ev) = 2 ^ a := Class.csz ⟨b', hb', hb2⟩
      rw [this] at t2
      simp only
      omega
    · rw [stored_eq h1]; simpa using e1
    · have e3 : stored cd { s with stream := s.stream.set a (some v') } = _ := stored_eq hset
      rw [e3]; simpa using e2.symm

end ByteStream
end Byoc
