import Verif.Model.ProfilerTime
import Mathlib.Data.List.Induction

/-!
# C110: the times of a `Profiler`
-/

namespace Byoc.ProfilerTimeProps

open ProfTime

/-- A call of the wrapped container and the nanoseconds it took. -/
abbrev Timed : Type := Inner × Nat

/-- The calls since the last `reset`. -/
def since (cs : List Timed) : List Timed :=
  cs.foldl (fun l c => match c.1 with | .reset => [] | _ => l ++ [c]) []

/-- Sum of something over the calls since the last `reset`. -/
def total (f : Timed → Nat) (cs : List Timed) : Nat := ((since cs).map f).sum

/-- The time of the calls of a kind. -/
def time (p : Inner → Bool) : Timed → Nat := fun c => if p c.1 then c.2 else 0

def isContains : Inner → Bool | .contains _ => true | _ => false
/-- `take` and `take_multiple`. -/
def isTake : Inner → Bool | .take .. => true | .takeMultiple .. => true | _ => false
def isTakeMultiple : Inner → Bool | .takeMultiple .. => true | _ => false
def isPop : Inner → Bool | .pop .. => true | _ => false
def isPush : Inner → Bool | .push _ => true | _ => false
def isFlush : Inner → Bool | .flush .. => true | _ => false
def isNext : Inner → Bool | .next => true | _ => false
def isGet : Inner → Bool | .get _ => true | _ => false
def isGetMut : Inner → Bool | .getMut _ => true | _ => false
/-- A lookup that found a key. -/
def finds : Inner → Bool
  | .contains b => b
  | .take b _ _ => b
  | .takeMultiple _ found _ _ => decide (0 < found)
  | .get b => b
  | .getMut b => b
  | _ => false
/-- A lookup of a key that was not found. -/
def misses : Inner → Bool
  | .contains b => !b
  | .take b _ _ => !b
  | .takeMultiple asked found _ _ => decide (found < asked)
  | .get b => !b
  | .getMut b => !b
  | _ => false

/-- Keys found, keys not found, and other counts, of a call. -/
def keysFound : Inner → Nat
  | .takeMultiple _ found _ _ => found
  | c => if finds c then 1 else 0
def keysMissed : Inner → Nat
  | .takeMultiple asked found _ _ => asked - found
  | c => if misses c then 1 else 0
def keysTaken : Inner → Nat
  | .take .. => 1
  | .takeMultiple asked .. => asked
  | _ => 0
def sizePopped : Inner → Nat
  | .pop before after => before - after
  | _ => 0
def pushed : Inner → Nat
  | .push n => n
  | _ => 0
def sizeTaken : Inner → Nat
  | .take _ before after => (before - after) + (after - before)
  | .takeMultiple _ _ before after => (before - after) + (after - before)
  | _ => 0
def sizeFlushed : Inner → Nat
  | .flush before after => (before - after) + (after - before)
  | _ => 0

/-- `1` for the calls of a kind. -/
def one (p : Inner → Bool) : Timed → Nat := fun c => if p c.1 then 1 else 0

/-- **C110, full statement.** After any history whose calls took less than 2^64 nanoseconds in all, the time reported for
each method is the time spent in it since the last `reset`, the time of hits is that of the lookups that found a key, the
time of misses that of the lookups of keys that were not found, and `time_stats()` is the time of all calls. -/
def C110_full : Prop :=
  ∀ (cs : List Timed) (st : Stats), run {} cs = .ok st → (cs.map Prod.snd).sum < 2 ^ 64 →
    st.contains.elapsed = total (time isContains) cs ∧ st.take.elapsed = total (time isTake) cs ∧
    st.pop.elapsed = total (time isPop) cs ∧ st.push.elapsed = total (time isPush) cs ∧
    st.flush.elapsed = total (time isFlush) cs ∧ st.flushIter.elapsed = total (time isNext) cs ∧
    st.get.elapsed = total (time isGet) cs ∧ st.getMut.elapsed = total (time isGetMut) cs ∧
    st.hit.elapsed = total (time finds) cs ∧ st.miss.elapsed = total (time misses) cs ∧
    timeStats st = .ok (total Prod.snd cs)

/-- The time of a `take_multiple` that finds nothing is time of hits. -/
theorem C110_wrong : ∃ st, run {} [(.takeMultiple 1 0 3 3, 5)] = .ok st ∧ st.hit.count = 0 ∧ st.hit.elapsed = 5 ∧
    st.miss.elapsed = 5 ∧ st.take.elapsed = 5 := ⟨_, rfl, rfl, rfl, rfl, rfl⟩

theorem C110_false : ¬ C110_full := by
  intro h
  obtain ⟨st, h1, -, h2, -⟩ := C110_wrong
  obtain ⟨-, -, -, -, -, -, -, -, h3, -⟩ := h _ _ h1 (by decide)
  rw [h2] at h3
  exact absurd h3 (by decide)

/-! ## What is counted -/

theorem since_snoc (cs : List Timed) (c : Timed) :
    since (cs ++ [c]) = match c.1 with | .reset => [] | _ => since cs ++ [c] := by
  simp only [since, List.foldl_append, List.foldl_cons, List.foldl_nil]

theorem total_snoc (f : Timed → Nat) (cs : List Timed) (c : Timed) :
    total f (cs ++ [c]) = match c.1 with | .reset => 0 | _ => total f cs + f c := by
  unfold total
  rw [since_snoc]
  split <;> simp

theorem run_snoc (st : Stats) (cs : List Timed) (c : Inner) (t : Nat) :
    run st (cs ++ [(c, t)]) = (do let st ← run st cs; step st c t) := by
  induction cs generalizing st with
  | nil => cases h : step st c t <;> simp [run, h]
  | cons d cs ih =>
    obtain ⟨d, u⟩ := d
    simp only [List.cons_append, run]
    cases step st d u with
    | panic => rfl
    | ok st' => simp only [Res.ok_bind]; exact ih st'

/-- What the statistics are. -/
structure Exact (cs : List Timed) (st : Stats) : Prop where
  contains : st.contains = ⟨total (one isContains) cs % 2 ^ 64, total (time isContains) cs % 2 ^ 64, 0⟩
  take : st.take = ⟨total (fun c => keysTaken c.1) cs % 2 ^ 64, total (time isTake) cs % 2 ^ 64,
    total (fun c => sizeTaken c.1) cs % 2 ^ 64⟩
  pop : st.pop = ⟨total (fun c => sizePopped c.1) cs % 2 ^ 64, total (time isPop) cs % 2 ^ 64,
    total (fun c => sizePopped c.1) cs % 2 ^ 64⟩
  push : st.push = ⟨total (fun c => pushed c.1) cs % 2 ^ 64, total (time isPush) cs % 2 ^ 64, 0⟩
  flush : st.flush = ⟨total (one isFlush) cs % 2 ^ 64, total (time isFlush) cs % 2 ^ 64,
    total (fun c => sizeFlushed c.1) cs % 2 ^ 64⟩
  flushIter : st.flushIter = ⟨total (one isNext) cs % 2 ^ 64, total (time isNext) cs % 2 ^ 64, 0⟩
  get : st.get = ⟨total (one isGet) cs % 2 ^ 64, total (time isGet) cs % 2 ^ 64, 0⟩
  getMut : st.getMut = ⟨total (one isGetMut) cs % 2 ^ 64, total (time isGetMut) cs % 2 ^ 64, 0⟩
  hit : st.hit = ⟨total (fun c => keysFound c.1) cs % 2 ^ 64,
    total (time fun c => finds c || isTakeMultiple c) cs % 2 ^ 64, 0⟩
  miss : st.miss = ⟨total (fun c => keysMissed c.1) cs % 2 ^ 64,
    total (time fun c => misses c || isTakeMultiple c) cs % 2 ^ 64, 0⟩

theorem sizeDiff_eq (a b : Nat) : sizeDiff a b = (a - b) + (b - a) := by
  unfold sizeDiff; split <;> omega

theorem sub_ok {a b d : Nat} (h : Res.sub a b = .ok d) : b ≤ a ∧ d = a - b := by
  unfold Res.sub at h
  split at h
  · cases h; constructor <;> first | assumption | rfl
  · cases h

/-- One counter, one more call. -/
theorem add_mod (a b c x y z : Nat) :
    MethodStats.add ⟨a % 2 ^ 64, b % 2 ^ 64, c % 2 ^ 64⟩ x y z =
      ⟨(a + x) % 2 ^ 64, (b + y) % 2 ^ 64, (c + z) % 2 ^ 64⟩ := by
  simp only [MethodStats.add, word, MethodStats.mk.injEq]
  omega

theorem add_mod0 (a b x y : Nat) :
    MethodStats.add ⟨a % 2 ^ 64, b % 2 ^ 64, 0⟩ x y 0 = ⟨(a + x) % 2 ^ 64, (b + y) % 2 ^ 64, 0⟩ := by
  have := add_mod a b 0 x y 0
  simpa using this

theorem exact_step {cs : List Timed} {st st' : Stats} (g : Exact cs st) (c : Inner) (t : Nat)
    (h : step st c t = .ok st') : Exact (cs ++ [(c, t)]) st' := by
  obtain ⟨g1, g2, g3, g4, g5, g6, g7, g8, g9, g10⟩ := g
  cases c with
  | takeMultiple n hits s0 s1 =>
    cases hd : Res.sub n hits with
    | panic => simp [step, hd] at h
    | ok d =>
      obtain ⟨-, rfl⟩ := sub_ok hd
      simp [step, hd] at h
      subst h
      constructor <;> simp only [total_snoc, g1, g2, g3, g4, g5, g6, g7, g8, g9, g10, add_mod, add_mod0, sizeDiff_eq] <;>
        simp [one, time, isContains, isTake, isTakeMultiple, isPop, isPush, isFlush, isNext, isGet, isGetMut, finds, misses,
          keysFound, keysMissed, keysTaken, sizePopped, pushed, sizeTaken, sizeFlushed]
  | pop s0 s1 =>
    cases hd : Res.sub s0 s1 with
    | panic => simp [step, hd] at h
    | ok d =>
      obtain ⟨hle, rfl⟩ := sub_ok hd
      simp [step, hd] at h
      subst h
      have hz : s1 - s0 = 0 := by omega
      constructor <;> simp only [total_snoc, g1, g2, g3, g4, g5, g6, g7, g8, g9, g10, add_mod, sizeDiff_eq, hz] <;>
        simp [one, time, isContains, isTake, isTakeMultiple, isPop, isPush, isFlush, isNext, isGet, isGetMut, finds, misses,
          keysFound, keysMissed, keysTaken, sizePopped, pushed, sizeTaken, sizeFlushed]
  | reset =>
    cases h
    constructor <;> simp [total_snoc]
  | contains b | get b | getMut b | take b _ _ =>
    cases h
    cases b <;> constructor <;>
      simp only [Stats.hitOrMiss, total_snoc, g1, g2, g3, g4, g5, g6, g7, g8, g9, g10, add_mod, add_mod0, sizeDiff_eq,
        if_true, Bool.false_eq_true, if_false] <;>
      simp [one, time, isContains, isTake, isTakeMultiple, isPop, isPush, isFlush, isNext, isGet, isGetMut, finds, misses,
          keysFound, keysMissed, keysTaken, sizePopped, pushed, sizeTaken, sizeFlushed]
  | push n | flush _ _ | next =>
    cases h
    constructor <;>
      simp only [total_snoc, g1, g2, g3, g4, g5, g6, g7, g8, g9, g10, add_mod, add_mod0, sizeDiff_eq] <;>
      simp [one, time, isContains, isTake, isTakeMultiple, isPop, isPush, isFlush, isNext, isGet, isGetMut, finds, misses,
          keysFound, keysMissed, keysTaken, sizePopped, pushed, sizeTaken, sizeFlushed]

/-- **C110.** After any history that returns, whatever the times: each counter is, modulo 2^64, the number, the time and the
size of the calls since the last `reset`; the time of hits is that of the single lookups that found their key and of all
the calls of `take_multiple`, and so is the time of misses. -/
theorem C110_exact (cs : List Timed) (st : Stats) (h : run {} cs = .ok st) : Exact cs st := by
  induction cs using List.reverseRecOn generalizing st with
  | nil => cases h; constructor <;> rfl
  | append_singleton cs c ih =>
    obtain ⟨c, t⟩ := c
    rw [run_snoc] at h
    cases hr : run {} cs with
    | panic => rw [hr] at h; cases h
    | ok st1 =>
      rw [hr, Res.ok_bind] at h
      exact exact_step (ih st1 hr) c t h

theorem sum_map_le {α : Type} (f g : α → Nat) (l : List α) (h : ∀ a, f a ≤ g a) : (l.map f).sum ≤ (l.map g).sum := by
  induction l with
  | nil => exact Nat.le_refl _
  | cons a l ih => simp only [List.map_cons, List.sum_cons]; exact Nat.add_le_add (h a) ih

theorem total_le (cs : List Timed) : total Prod.snd cs ≤ (cs.map Prod.snd).sum := by
  induction cs using List.reverseRecOn with
  | nil => exact Nat.le_refl _
  | append_singleton cs c ih =>
    rw [total_snoc]
    split
    · exact Nat.zero_le _
    · change total Prod.snd cs + c.2 ≤ _
      simp only [List.map_append, List.map_cons, List.map_nil, List.sum_append, List.sum_cons, List.sum_nil]; omega

theorem time_le (p : Inner → Bool) (cs : List Timed) : total (time p) cs ≤ total Prod.snd cs :=
  sum_map_le _ _ _ (fun a => by unfold time; split <;> omega)

/-- Every call since the last `reset` is of one of eight kinds. -/
theorem total_split (cs : List Timed) :
    total (time isContains) cs + total (time isTake) cs + total (time isPop) cs + total (time isPush) cs +
      total (time isFlush) cs + total (time isNext) cs + total (time isGet) cs + total (time isGetMut) cs =
    total Prod.snd cs := by
  induction cs using List.reverseRecOn with
  | nil => rfl
  | append_singleton cs c ih =>
    obtain ⟨c, t⟩ := c
    simp only [total_snoc]
    cases c <;> simp [time, isContains, isTake, isPop, isPush, isFlush, isNext, isGet, isGetMut] <;> omega

theorem total_lookups (cs : List Timed) :
    total (time fun c => finds c || isTakeMultiple c) cs + total (time fun c => misses c || isTakeMultiple c) cs =
    total (time isContains) cs + total (time isTake) cs + total (time isGet) cs + total (time isGetMut) cs +
      total (time isTakeMultiple) cs := by
  induction cs using List.reverseRecOn with
  | nil => rfl
  | append_singleton cs c ih =>
    obtain ⟨c, t⟩ := c
    simp only [total_snoc]
    revert ih
    generalize total (time fun c => finds c || isTakeMultiple c) cs = x
    generalize total (time fun c => misses c || isTakeMultiple c) cs = y
    intro ih
    cases c with
    | contains b | get b | getMut b | take b _ _ =>
      cases b <;> simp [time, isContains, isTake, isTakeMultiple, isGet, isGetMut, finds, misses] <;> omega
    | _ => simp [time, isContains, isTake, isTakeMultiple, isGet, isGetMut, finds, misses] <;> omega

theorem addWord_ok {a b : Nat} (h : a + b < 2 ^ 64) : addWord a b = .ok (a + b) := if_pos h

theorem timeStats_ok (st : Stats) (h : st.contains.elapsed + st.take.elapsed + st.pop.elapsed + st.push.elapsed +
    st.flush.elapsed + st.flushIter.elapsed + st.get.elapsed + st.getMut.elapsed < 2 ^ 64) :
    timeStats st = .ok (st.contains.elapsed + st.take.elapsed + st.pop.elapsed + st.push.elapsed +
      st.flush.elapsed + st.flushIter.elapsed + st.get.elapsed + st.getMut.elapsed) := by
  unfold timeStats
  rw [addWord_ok (by omega), Res.ok_bind, addWord_ok (by omega), Res.ok_bind, addWord_ok (by omega), Res.ok_bind,
    addWord_ok (by omega), Res.ok_bind, addWord_ok (by omega), Res.ok_bind, addWord_ok (by omega), Res.ok_bind,
    addWord_ok (by omega)]

/-- **C110, what holds.** All of the full statement except the times of hits and misses: these also count every call of
`take_multiple`, both; without `take_multiple` they are right.  The times of hits and misses add up to the time of all
lookups plus that of the calls of `take_multiple`. -/
theorem C110_partial (cs : List Timed) (st : Stats) (h : run {} cs = .ok st) (hs : (cs.map Prod.snd).sum < 2 ^ 64) :
    st.contains.elapsed = total (time isContains) cs ∧ st.take.elapsed = total (time isTake) cs ∧
    st.pop.elapsed = total (time isPop) cs ∧ st.push.elapsed = total (time isPush) cs ∧
    st.flush.elapsed = total (time isFlush) cs ∧ st.flushIter.elapsed = total (time isNext) cs ∧
    st.get.elapsed = total (time isGet) cs ∧ st.getMut.elapsed = total (time isGetMut) cs ∧
    st.hit.elapsed = total (time fun c => finds c || isTakeMultiple c) cs ∧
    st.miss.elapsed = total (time fun c => misses c || isTakeMultiple c) cs ∧
    ((∀ c ∈ since cs, isTakeMultiple c.1 = false) →
      st.hit.elapsed = total (time finds) cs ∧ st.miss.elapsed = total (time misses) cs) ∧
    st.hit.elapsed + st.miss.elapsed =
      st.contains.elapsed + st.take.elapsed + st.get.elapsed + st.getMut.elapsed + total (time isTakeMultiple) cs ∧
    timeStats st = .ok (total Prod.snd cs) := by
  obtain ⟨g1, g2, g3, g4, g5, g6, g7, g8, g9, g10⟩ := C110_exact cs st h
  have hle := total_le cs
  have e (p : Inner → Bool) : total (time p) cs % 2 ^ 64 = total (time p) cs :=
    Nat.mod_eq_of_lt (by have := time_le p cs; omega)
  have q1 : st.contains.elapsed = total (time isContains) cs := by rw [g1]; exact e _
  have q2 : st.take.elapsed = total (time isTake) cs := by rw [g2]; exact e _
  have q3 : st.pop.elapsed = total (time isPop) cs := by rw [g3]; exact e _
  have q4 : st.push.elapsed = total (time isPush) cs := by rw [g4]; exact e _
  have q5 : st.flush.elapsed = total (time isFlush) cs := by rw [g5]; exact e _
  have q6 : st.flushIter.elapsed = total (time isNext) cs := by rw [g6]; exact e _
  have q7 : st.get.elapsed = total (time isGet) cs := by rw [g7]; exact e _
  have q8 : st.getMut.elapsed = total (time isGetMut) cs := by rw [g8]; exact e _
  have q9 : st.hit.elapsed = total (time fun c => finds c || isTakeMultiple c) cs := by rw [g9]; exact e _
  have q10 : st.miss.elapsed = total (time fun c => misses c || isTakeMultiple c) cs := by rw [g10]; exact e _
  have hsp := total_split cs
  refine ⟨q1, q2, q3, q4, q5, q6, q7, q8, q9, q10, fun hn => ?_, ?_, ?_⟩
  · constructor
    · rw [q9]
      unfold total
      congr 1
      exact List.map_congr_left (fun c hc => by simp [time, hn c hc])
    · rw [q10]
      unfold total
      congr 1
      exact List.map_congr_left (fun c hc => by simp [time, hn c hc])
  · rw [q9, q10, q1, q2, q7, q8]; exact total_lookups cs
  · rw [timeStats_ok st (by rw [q1, q2, q3, q4, q5, q6, q7, q8, hsp]; omega), q1, q2, q3, q4, q5, q6, q7, q8, hsp]

/-- `run` returns when the sizes and counts the container reports make sense. -/
theorem C110_returns (cs : List Timed)
    (hp : ∀ c ∈ cs, match c.1 with | .takeMultiple asked found _ _ => found ≤ asked | .pop b a => a ≤ b | _ => True) :
    ∃ st, run {} cs = .ok st := by
  have hsub {a b : Nat} (h : b ≤ a) : Res.sub a b = .ok (a - b) := if_pos h
  generalize ({} : Stats) = st
  induction cs generalizing st with
  | nil => exact ⟨st, rfl⟩
  | cons c cs ih =>
    obtain ⟨c, t⟩ := c
    have hc := hp (c, t) (List.mem_cons_self ..)
    have : ∃ st', step st c t = .ok st' := by
      cases c with
      | takeMultiple asked found _ _ => simp only at hc; simp only [step, hsub hc]; exact ⟨_, rfl⟩
      | pop b a => simp only at hc; simp only [step, hsub hc]; exact ⟨_, rfl⟩
      | _ => exact ⟨_, rfl⟩
    obtain ⟨st', hst⟩ := this
    obtain ⟨st'', h⟩ := ih (fun c hc => hp c (List.mem_cons_of_mem _ hc)) st'
    exact ⟨st'', by simp only [run, hst, Res.ok_bind]; exact h⟩

/-- A history with every kind of call, and a `reset`: only the calls after it count. -/
example : ∃ st, run {} [(.push 7, 1000), (.reset, 0), (.contains true, 1), (.take false 3 3, 2), (.takeMultiple 3 2 5 3, 4),
      (.pop 3 1, 8), (.push 2, 16), (.flush 3 0, 32), (.next, 64), (.next, 64), (.get false, 128), (.getMut true, 256)] = .ok st ∧
    st.take.elapsed = 6 ∧ st.push.elapsed = 16 ∧ st.flushIter.elapsed = 128 ∧ st.hit.elapsed = 261 ∧ st.miss.elapsed = 134 ∧
    timeStats st = .ok 575 := ⟨_, rfl, rfl, rfl, rfl, rfl, rfl, rfl⟩

end Byoc.ProfilerTimeProps
