import Verif.Proofs.Wire

/-!
# Invariants of a client connected to a server
-/

namespace Byoc.Socket

variable {K V : Type} {ck : Codec K} {cv : Codec V} {C : Block K V}

/-- A sequence of requests answered one after the other. -/
def replay (C : Block K V) : C.State → List (Request K V) → Res (List (Response K V) × C.State)
  | s, [] => .ok ([], s)
  | s, r :: rs => do
    let (resp, s') ← answer C s r
    let (resps, s'') ← replay C s' rs
    pure (resp :: resps, s'')

theorem replay_snoc {s₀ s s' : C.State} {rs : List (Request K V)} {resps : List (Response K V)}
    {r : Request K V} {resp : Response K V} (h : replay C s₀ rs = .ok (resps, s))
    (ha : answer C s r = .ok (resp, s')) : replay C s₀ (rs ++ [r]) = .ok (resps ++ [resp], s') := by
  induction rs generalizing s₀ resps with
  | nil => cases h; simp [replay, ha]
  | cons r₁ rs ih =>
    simp only [replay] at h
    cases h1 : answer C s₀ r₁ with
    | panic => simp [h1] at h
    | ok x =>
      obtain ⟨p, s₁⟩ := x
      simp only [h1, Res.ok_bind] at h
      cases h2 : replay C s₁ rs with
      | panic => simp [h2] at h
      | ok y =>
        obtain ⟨ps, s₂⟩ := y
        simp only [h2, Res.ok_bind, Res.pure_eq, Res.ok.injEq] at h
        cases h
        simp [replay, h1, ih h2]

theorem answer_accepts {s s' : C.State} {r : Request K V} {resp : Response K V}
    (h : answer C s r = .ok (resp, s')) : accepts r resp = true := by
  cases r with
  | capacity => cases h; rfl
  | size => cases h; rfl
  | contains k => cases h1 : C.contains s k <;> simp [answer, h1] at h; rw [← h.1]; rfl
  | take k => cases h1 : C.take s k <;> simp [answer, h1] at h; rw [← h.1]; rfl
  | takeMultiple k => cases h1 : C.takeMultiple s k <;> simp [answer, h1] at h; rw [← h.1]; rfl
  | pop k => cases h1 : C.pop s k <;> simp [answer, h1] at h; rw [← h.1]; rfl
  | push k => cases h1 : C.push s k <;> simp [answer, h1] at h; rw [← h.1]; rfl
  | flush => cases h1 : C.flush s <;> simp [answer, h1] at h; rw [← h.1]; rfl

/-- The calls that returned are the ones of a local history ending in `s`. -/
def Replayed (s₀ : C.State) (l : Link C) (s : C.State) : Prop :=
  replay C s₀ (l.log.map Prod.fst) = .ok (l.log.map Prod.snd, s)

/-- The four situations of a connection without a pause inside a request. -/
inductive Phase (ck : Codec K) (cv : Codec V) (s₀ : C.State) (l : Link C) : Prop where
  | idle (s : C.State) (hr : Replayed s₀ l s) (h1 : l.server = some s) (h2 : l.reading = [])
      (h3 : l.toServer = []) (h4 : l.toClient = []) (h5 : l.received = []) (h6 : l.waiting = none)
      (h7 : l.clientPanic = false)
  | sending (s : C.State) (r : Request K V) (hr : Replayed s₀ l s) (h1 : l.server = some s)
      (hf : r.fits = true) (h2 : l.reading ++ l.toServer = r.enc ck cv) (h3 : l.toServer ≠ [])
      (h4 : l.toClient = []) (h5 : l.received = []) (h6 : l.waiting = some r) (h7 : l.clientPanic = false)
  | answering (s s' : C.State) (r : Request K V) (resp : Response K V) (hr : Replayed s₀ l s)
      (ha : answer C s r = .ok (resp, s')) (h1 : l.server = some s') (hf : resp.fits = true)
      (h2 : l.reading = []) (h3 : l.toServer = []) (h4 : l.received ++ l.toClient = resp.enc ck cv)
      (h5 : l.toClient ≠ []) (h6 : l.waiting = some r) (h7 : l.clientPanic = false)
  | dead (s : C.State) (r : Request K V) (hr : Replayed s₀ l s) (h1 : l.server = none)
      (ha : ∀ resp s', answer C s r = .ok (resp, s') → resp.fits = false)
      (h4 : l.toClient = []) (h6 : l.waiting = some r) (h7 : l.clientPanic = false)

/-- No pause inside a request: each time the server times out it has consumed nothing. -/
def Link.Prompt (ck : Codec K) (cv : Codec V) (l : Link C) : List (Ev K V) → Prop
  | [] => True
  | e :: es => (match e with | .timeout => l.reading = [] | _ => True) ∧ (l.step ck cv e).Prompt ck cv es

theorem prefix_more {α : Type} {p : Parser α} {bs : List Byte} {a : α} (h : Reads p bs a)
    {x y : List Byte} {b : Byte} (e : x ++ b :: y = bs) :
    (y = [] ∧ p (x ++ [b]) = .done a []) ∨ (y ≠ [] ∧ p (x ++ [b]) = .more) := by
  subst e
  by_cases hy : y = []
  · subst hy
    exact .inl ⟨rfl, by simpa using h.1 []⟩
  · refine .inr ⟨hy, h.2 _ ⟨y, by simp⟩ ?_⟩
    intro h'
    have := congrArg List.length h'
    simp at this
    exact hy this

theorem Phase.step (hk : ck.Lawful) (hv : cv.Lawful) {s₀ : C.State} {l : Link C}
    (h : Phase ck cv s₀ l) (e : Ev K V)
    (hp : match (generalizing := false) e with | .timeout => l.reading = [] | _ => True) :
    Phase ck cv s₀ (l.step ck cv e) := by
  cases h with
  | idle s hr h1 h2 h3 h4 h5 h6 h7 =>
    cases e with
    | call r =>
      by_cases hf : r.fits = true
      · simp only [Link.step, h6, h7, hf, and_self, if_true]
        exact .sending s r hr h1 hf (by simp [h2, h3]) (by simp [h3, Request.enc_ne_nil]) h4 h5 rfl rfl
      · rw [Bool.not_eq_true] at hf
        simp only [Link.step, hf, Bool.false_eq_true, and_false, if_false]
        exact .idle s hr h1 h2 h3 h4 h5 h6 h7
    | deliver =>
      simp only [Link.step, h1, h3]
      exact .idle s hr h1 h2 h3 h4 h5 h6 h7
    | timeout => exact .idle s hr h1 rfl h3 h4 h5 h6 h7
    | receive =>
      simp only [Link.step, h6]
      exact .idle s hr h1 h2 h3 h4 h5 h6 h7
  | sending s r hr h1 hf h2 h3 h4 h5 h6 h7 =>
    cases e with
    | call r' =>
      simp only [Link.step, h6, reduceCtorEq, false_and, if_false]
      exact .sending s r hr h1 hf h2 h3 h4 h5 h6 h7
    | deliver =>
      cases hts : l.toServer with
      | nil => exact absurd hts h3
      | cons b rest =>
        rw [hts] at h2
        simp only [Link.step, h1, hts]
        rcases prefix_more (Request.reads hk hv r hf) h2 with ⟨rfl, hd⟩ | ⟨hne, hd⟩
        · rw [hd]
          simp only
          cases ha : answer C s r with
          | panic =>
            simp only
            exact .dead s r hr rfl (by simp [ha]) h4 h6 h7
          | ok x =>
            obtain ⟨resp, s'⟩ := x
            simp only
            split
            · rename_i hfit
              exact .answering s s' r resp hr ha rfl hfit rfl rfl (by simp [h4, h5])
                (by simp [h4, Response.enc_ne_nil]) h6 h7
            · rename_i hfit
              exact .dead s r hr rfl (by rw [ha]; rintro _ _ ⟨⟩; simpa using hfit) h4 h6 h7
        · rw [hd]
          simp only
          exact .sending s r hr rfl hf (by simpa using h2) hne h4 h5 h6 h7
    | timeout =>
      replace hp : l.reading = [] := hp
      simp only [Link.step]
      exact .sending s r hr h1 hf (by rw [hp] at h2; exact h2) h3 h4 h5 h6 h7
    | receive =>
      simp only [Link.step, h6, h4]
      exact .sending s r hr h1 hf h2 h3 h4 h5 h6 h7
  | answering s s' r resp hr ha h1 hf h2 h3 h4 h5 h6 h7 =>
    cases e with
    | call r' =>
      simp only [Link.step, h6, reduceCtorEq, false_and, if_false]
      exact .answering s s' r resp hr ha h1 hf h2 h3 h4 h5 h6 h7
    | deliver =>
      simp only [Link.step, h1, h3]
      exact .answering s s' r resp hr ha h1 hf h2 h3 h4 h5 h6 h7
    | timeout => exact .answering s s' r resp hr ha h1 hf rfl h3 h4 h5 h6 h7
    | receive =>
      cases htc : l.toClient with
      | nil => exact absurd htc h5
      | cons b rest =>
        rw [htc] at h4
        simp only [Link.step, h6, htc, h7, Bool.false_eq_true, if_false]
        rcases prefix_more (Response.reads hk hv resp hf) h4 with ⟨rfl, hd⟩ | ⟨hne, hd⟩
        · rw [hd]
          simp only [answer_accepts ha, if_true]
          refine .idle s' ?_ h1 h2 h3 rfl rfl rfl rfl
          unfold Replayed
          rw [List.map_append, List.map_append]
          exact replay_snoc hr ha
        · rw [hd]
          simp only
          exact .answering s s' r resp hr ha h1 hf h2 h3 (by simpa using h4) hne rfl rfl
  | dead s r hr h1 ha h4 h6 h7 =>
    cases e with
    | call r' =>
      simp only [Link.step, h6, reduceCtorEq, false_and, if_false]
      exact .dead s r hr h1 ha h4 h6 h7
    | deliver =>
      simp only [Link.step, h1]
      exact .dead s r hr h1 ha h4 h6 h7
    | timeout => exact .dead s r hr h1 ha h4 h6 h7
    | receive =>
      simp only [Link.step, h6, h4]
      exact .dead s r hr h1 ha h4 h6 h7

theorem Phase.run (hk : ck.Lawful) (hv : cv.Lawful) {s₀ : C.State} : ∀ (es : List (Ev K V)) (l : Link C),
    Phase ck cv s₀ l → l.Prompt ck cv es → Phase ck cv s₀ (l.run ck cv es)
  | [], _, h, _ => h
  | e :: es, _, h, hp => Phase.run hk hv es _ (h.step hk hv e hp.1) hp.2

theorem Link.run_append (l : Link C) (es es' : List (Ev K V)) :
    l.run ck cv (es ++ es') = (l.run ck cv es).run ck cv es' := by
  induction es generalizing l with
  | nil => rfl
  | cons e es ih => exact ih _

/-- The response arrives. -/
theorem progress_answer (hk : ck.Lawful) (hv : cv.Lawful) (resp : Response K V) (hf : resp.fits = true)
    (r : Request K V) (hacc : accepts r resp = true) : ∀ (bs : List Byte) (l : Link C), l.toClient = bs → bs ≠ [] →
    l.received ++ bs = resp.enc ck cv → l.waiting = some r → l.clientPanic = false →
    (l.run ck cv (List.replicate bs.length .receive)).waiting = none
  | [], _, _, hne, _, _, _ => absurd rfl hne
  | b :: rest, l, htc, _, h4, h6, h7 => by
    simp only [List.length_cons, List.replicate_succ, Link.run]
    rcases prefix_more (Response.reads hk hv resp hf) h4 with ⟨rfl, hd⟩ | ⟨hne, hd⟩
    · simp only [Link.step, h6, htc, h7, Bool.false_eq_true, if_false, hd, hacc, if_true,
        List.length_nil, List.replicate_zero, Link.run]
    · refine progress_answer hk hv resp hf r hacc rest _ ?_ hne ?_ ?_ ?_
      · simp only [Link.step, h6, htc, h7, Bool.false_eq_true, if_false, hd]
      · simpa only [Link.step, h6, htc, h7, Bool.false_eq_true, if_false, hd, List.append_assoc,
          List.cons_append, List.nil_append] using h4
      · simp only [Link.step, h6, htc, h7, Bool.false_eq_true, if_false, hd]
      · simp only [Link.step, h6, htc, h7, Bool.false_eq_true, if_false, hd]

/-- The request arrives. -/
theorem progress_request (hk : ck.Lawful) (hv : cv.Lawful) (r : Request K V) (hf : r.fits = true)
    (s s' : C.State) (resp : Response K V) (ha : answer C s r = .ok (resp, s')) (hfr : resp.fits = true) :
    ∀ (bs : List Byte) (l : Link C), l.toServer = bs → bs ≠ [] → l.reading ++ bs = r.enc ck cv →
    l.server = some s → l.toClient = [] →
    let l' := l.run ck cv (List.replicate bs.length .deliver)
    l'.toClient = resp.enc ck cv ∧ l'.received = l.received ∧ l'.waiting = l.waiting ∧
      l'.clientPanic = l.clientPanic
  | [], _, _, hne, _, _, _ => absurd rfl hne
  | b :: rest, l, hts, _, h2, h1, h4 => by
    simp only [List.length_cons, List.replicate_succ, Link.run]
    rcases prefix_more (Request.reads hk hv r hf) h2 with ⟨rfl, hd⟩ | ⟨hne, hd⟩
    · simp only [Link.step, h1, hts, hd, ha, hfr, if_true, List.length_nil, List.replicate_zero,
        Link.run, h4, List.nil_append, and_self]
    · have e : l.step ck cv .deliver = { l with reading := l.reading ++ [b], toServer := rest } := by
        simp only [Link.step, h1, hts, hd]
      rw [e]
      exact progress_request hk hv r hf s s' resp ha hfr rest _ rfl hne (by simpa using h2) h1 h4

/-- A call in progress is completed by letting bytes arrive, unless answering it panics. -/
theorem Phase.progress (hk : ck.Lawful) (hv : cv.Lawful) {s₀ : C.State} (l : Link C)
    (h : Phase ck cv s₀ l) (hs : ∀ s r, l.waiting = some r → ∃ resp s', answer C s r = .ok (resp, s') ∧
      resp.fits = true) :
    ∃ n m : Nat, (l.run ck cv (List.replicate n .deliver ++ List.replicate m .receive)).waiting = none := by
  cases h with
  | idle s hr h1 h2 h3 h4 h5 h6 h7 => exact ⟨0, 0, h6⟩
  | sending s r hr h1 hf h2 h3 h4 h5 h6 h7 =>
    obtain ⟨resp, s', ha, hfr⟩ := hs s r h6
    obtain ⟨g1, g2, g3, g4⟩ := progress_request hk hv r hf s s' resp ha hfr _ l rfl h3 h2 h1 h4
    refine ⟨l.toServer.length, (resp.enc ck cv).length, ?_⟩
    rw [Link.run_append]
    exact progress_answer hk hv resp hfr r (answer_accepts ha) _ _ g1 (Response.enc_ne_nil ck cv resp)
      (by rw [g2, h5]; rfl) (g3.trans h6) (g4.trans h7)
  | answering s s' r resp hr ha h1 hf h2 h3 h4 h5 h6 h7 =>
    refine ⟨0, l.toClient.length, ?_⟩
    exact progress_answer hk hv resp hf r (answer_accepts ha) _ l rfl h5 h4 h6 h7
  | dead s r hr h1 ha h4 h6 h7 =>
    obtain ⟨resp, s', h, hfr⟩ := hs s r h6
    rw [ha _ _ h] at hfr
    cases hfr

end Byoc.Socket
