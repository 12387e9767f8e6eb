import Verif.Model.Stack
import Verif.Model.Inclusive

/-!
# The building blocks when the user's functions panic

The methods call functions of the user: `element_size` of `Array`, `eq` and `cmp` of keys and values, the hasher of
`Associative`.  Any of these calls may panic; the panic unwinds through the methods, which leaves the container in the
state it has at this point, and the user may go on with it (`catch_unwind`, `Drop`, another thread).

Here a method is a computation `M` on the state of the container that consumes one *fate* for each place where functions
of the user are called; when the fate is a panic, the state is what it was there.  When every fate is to return, the method
is the one of the model used everywhere else (`Unwinding.Agrees`, Proofs/Unwind).

Simplifications: a part of a method that calls functions of the user several times without changing anything in between
is one place (a panic in any of these calls has the same effect).  Destructors of keys and values do not panic.
-/

namespace Byoc.Unwind

/-- What the calls of the user's functions do: return, or panic (the number says in which order a sort that is
interrupted leaves its elements).  At the end of the list all calls return. -/
abbrev Fates := List (Option Nat)

/-- A computation on a state `σ`, and the state it leaves whether it returns (`some`) or panics (`none`).  With no fate
it consumes none, and when it returns, it does what it does with no fate. -/
structure M (σ α : Type) where
  run : Fates → σ → Option α × Fates × σ
  quiet : ∀ s, (run [] s).2.1 = []
  det : ∀ w s a w' s', run w s = (some a, w', s') → (run [] s).1 = some a ∧ (run [] s).2.2 = s'

namespace M

variable {σ τ α β : Type}

protected def pure (a : α) : M σ α where
  run w s := (some a, w, s)
  quiet _ := rfl
  det := by intro w s a w' s' h; simp at h; simp [h.1, h.2.2]

protected def bind (m : M σ α) (f : α → M σ β) : M σ β where
  run w s := match m.run w s with
    | (some a, w, s) => (f a).run w s
    | (none, w, s) => (none, w, s)
  quiet s := by
    have := m.quiet s
    split
    · rename_i w s' h; rw [h] at this; simp at this; subst this; exact (f _).quiet s'
    · rename_i w s' h; rw [h] at this; simpa using this
  det := by
    intro w s b w' s' h
    split at h
    · rename_i a w1 s1 h1
      obtain ⟨h2, h3⟩ := m.det _ _ _ _ _ h1
      have hq := m.quiet s
      obtain ⟨h4, h5⟩ := (f a).det _ _ _ _ _ h
      have : m.run [] s = (some a, [], s1) := Prod.ext h2 (Prod.ext hq h3)
      rw [this]
      exact ⟨h4, h5⟩
    · simp at h

instance : Monad (M σ) where
  pure := M.pure
  bind := M.bind

/-- A call of functions of the user. -/
def user : M σ Unit where
  run w s := match w with
    | [] => (some (), [], s)
    | none :: w => (some (), w, s)
    | some _ :: w => (none, w, s)
  quiet _ := rfl
  det := by
    intro w s a w' s' h
    split at h <;> simp at h <;> simp [h.2]

/-- `panic!`. -/
def fail : M σ α where
  run w s := (none, w, s)
  quiet _ := rfl
  det := by intro w s a w' s' h; simp at h

/-- A computation that does not touch the state. -/
def ofRes : Res α → M σ α
  | .ok a => M.pure a
  | .panic => fail

/-- Depending on the state. -/
def withState (f : σ → M σ α) : M σ α where
  run w s := (f s).run w s
  quiet s := (f s).quiet s
  det w s := (f s).det w s

/-- Assign the state. -/
def set (s : σ) : M σ Unit where
  run w _ := (some (), w, s)
  quiet _ := rfl
  det := by intro w s a w' s' h; simp at h; simp [h.2]

/-- `sort`, `sort_unstable`: when `cmp` panics the elements are all there, in some order (documentation of `slice::sort`). -/
def sort {E : Type} (srt : Sorter E) (left : Nat → List E → List E) : M (List E) Unit where
  run w l := match w with
    | [] => (some (), [], srt.run l)
    | none :: w => (some (), w, srt.run l)
    | some n :: w => (none, w, left n l)
  quiet _ := rfl
  det := by
    intro w s a w' s' h
    split at h <;> simp at h <;> simp [h.2]

/-- On a part of the state. -/
def zoom (get : τ → σ) (put : σ → τ → τ) (m : M σ α) : M τ α where
  run w t := match m.run w (get t) with
    | (o, w, s) => (o, w, put s t)
  quiet t := m.quiet (get t)
  det := by
    intro w t a w' t' h
    simp only [Prod.mk.injEq] at h
    obtain ⟨h1, h2⟩ := m.det w (get t) a _ _ (Prod.ext h.1 rfl)
    exact ⟨h1, by show put (m.run [] (get t)).2.2 t = t'; rw [h2, h.2.2]⟩

def fst (m : M σ α) : M (σ × τ) α := zoom Prod.fst (fun s t => (s, t.2)) m
def snd (m : M τ α) : M (σ × τ) α := zoom Prod.snd (fun s t => (t.1, s)) m

/-- On the head of a list. -/
def head (m : M σ α) : M (List σ) α where
  run w l := match l with
    | [] => (none, w, [])
    | c :: cs => match m.run w c with
      | (o, w, c) => (o, w, c :: cs)
  quiet l := by cases l <;> simp [m.quiet]
  det := by
    intro w l a w' l' h
    cases l with
    | nil => simp at h
    | cons c cs =>
      simp only [Prod.mk.injEq] at h
      obtain ⟨h1, h2⟩ := m.det w c a _ _ (Prod.ext h.1 rfl)
      exact ⟨h1, by simp only; rw [h2, h.2.2]⟩

/-- On the tail of a list. -/
def tail (m : M (List σ) α) : M (List σ) α where
  run w l := match l with
    | [] => (none, w, [])
    | c :: cs => match m.run w cs with
      | (o, w, cs) => (o, w, c :: cs)
  quiet l := by cases l <;> simp [m.quiet]
  det := by
    intro w l a w' l' h
    cases l with
    | nil => simp at h
    | cons c cs =>
      simp only [Prod.mk.injEq] at h
      obtain ⟨h1, h2⟩ := m.det w cs a _ _ (Prod.ext h.1 rfl)
      exact ⟨h1, by simp only; rw [h2, h.2.2]⟩

/-- On the element at an index; out of bounds panics. -/
def atIndex (i : Nat) (m : M σ α) : M (List σ) α where
  run w l := match l[i]? with
    | none => (none, w, l)
    | some c => match m.run w c with
      | (o, w, c) => (o, w, l.set i c)
  quiet l := by cases h : l[i]? <;> simp [m.quiet]
  det := by
    intro w l a w' l' h
    cases hc : l[i]? with
    | none => simp [hc] at h
    | some c =>
      simp only [hc, Prod.mk.injEq] at h
      obtain ⟨h1, h2⟩ := m.det w c a _ _ (Prod.ext h.1 rfl)
      exact ⟨h1, by simp only; rw [h2, h.2.2]⟩

/-- On a local variable of the method, which is lost when the computation panics. -/
def onLocal (m : M τ α) (t : τ) : M σ (α × τ) where
  run w s := match m.run w t with
    | (some a, w, t) => (some (a, t), w, s)
    | (none, w, _) => (none, w, s)
  quiet s := by
    have := m.quiet t
    split <;> (rename_i h; rw [h] at this; simpa using this)
  det := by
    intro w s a w' s' h
    split at h
    · rename_i a1 w1 t1 h1
      obtain ⟨h2, h3⟩ := m.det _ _ _ _ _ h1
      have hq := m.quiet t
      have : m.run [] t = (some a1, [], t1) := Prod.ext h2 (Prod.ext hq h3)
      rw [this]
      simp at h
      simp [h.1, h.2.2]
    · simp at h

/-- On the state of a container of one of several types. -/
def sigma {ι : Type} {S : ι → Type} (m : ∀ i, M (S i) α) : M (Σ i, S i) α where
  run w s := match (m s.1).run w s.2 with
    | (o, w, c) => (o, w, ⟨s.1, c⟩)
  quiet s := (m s.1).quiet s.2
  det := by
    intro w s a w' s' h
    simp only [Prod.mk.injEq] at h
    obtain ⟨h1, h2⟩ := (m s.1).det w s.2 a _ _ (Prod.ext h.1 rfl)
    exact ⟨h1, by show Sigma.mk s.1 ((m s.1).run [] s.2).2.2 = s'; rw [h2, h.2.2]⟩

/-- The outcome when no function of the user panics. -/
def res (m : M σ α) (s : σ) : Res (α × σ) :=
  match m.run [] s with
  | (some a, _, s) => .ok (a, s)
  | (none, _, _) => .panic

end M

open M

variable {K V : Type}

/-- The methods of a building block with state `S`, with the places where functions of the user are called. -/
structure Unwinding (S K V : Type) where
  contains : K → M S Bool
  take : K → M S (Option (K × V))
  takeMultiple : List K → M S (List (K × V) × List K)
  pop : Nat → M S (List (K × V))
  push : List (K × V) → M S (List (K × V))
  flush : M S (List (K × V))

/-! ## Array -/

/-- src/array/building_block.rs 165-172: binary search of the keys, then `element_size`. -/
def arrayTakeLoop [LinearOrder K] (sz : K × V → Nat) :
    Nat → List K → List (K × V) → M (Array K V) (List (K × V) × List K)
  | 0, keys, ret => return (ret, keys)
  | i + 1, keys, ret => withState fun a => do
    let e ← ofRes (Res.unwrap a.values[i]?)
    user
    match bsearch keys e.1 with
    | none => arrayTakeLoop sz i keys ret
    | some j => do
      user
      let t ← ofRes (Res.sub a.totalSize (sz e))
      set { a with totalSize := t, values := swapRemove a.values i }
      arrayTakeLoop sz i (keys.eraseIdx j) (ret ++ [e])

/-- src/array/building_block.rs 55-80: the sort is in place, then `element_size` is called. -/
def arrayPop (sz : K × V → Nat) (srt : Sorter (K × V)) (left : Nat → List (K × V) → List (K × V))
    (size : Nat) : M (Array K V) (List (K × V)) := withState fun a => do
  if a.values = [] then return []
  if a.totalSize ≤ size then
    set { a with totalSize := 0, values := [] }
    return a.values
  zoom Array.values (fun l a => { a with values := l }) (sort srt left)
  user
  let sorted := srt.run a.values
  let (cut, cutSize, _) := findCutAtSize sz size sorted
  let t ← ofRes (Res.sub a.totalSize cutSize)
  set { a with totalSize := t, values := sorted.take cut }
  return sorted.drop cut

/-- src/array/building_block.rs 101-136: `element_size` of the elements, the sort of the elements (the parameter of the
method), `element_size` again, `pop`. -/
def arrayPush (sz : K × V → Nat) (srt srtS : Sorter (K × V)) (left : Nat → List (K × V) → List (K × V))
    (elements : List (K × V)) : M (Array K V) (List (K × V)) := withState fun a => do
  user
  let size := total sz elements
  let room ← ofRes (Res.sub a.capacity a.totalSize)
  if size ≤ room then
    set { a with totalSize := a.totalSize + size, values := a.values ++ elements }
    return []
  if size = a.capacity then
    set { a with totalSize := size, values := elements }
    return a.values
  if size > a.capacity then
    user
    let sorted := srtS.run elements
    user
    let (cut, cutSize, _) := findCutAtSize sz (size - a.capacity) sorted
    -- lines 124-128: `values` is swapped before the subtraction of line 127
    set { a with values := sorted.take cut }
    let t ← ofRes (Res.sub size cutSize)
    set { a with totalSize := t, values := sorted.take cut }
    return a.values ++ sorted.drop cut
  let out ← arrayPop sz srt left (size - room)
  withState fun a' => do
    set { a' with totalSize := a'.totalSize + size, values := a'.values ++ elements }
    return out

/-- src/array/building_block.rs 138-153: `eq`, then `element_size`, then the changes. -/
def arrayTake [DecidableEq K] (sz : K × V → Nat) (k : K) : M (Array K V) (Option (K × V)) :=
  withState fun a => do
    user
    match findKey a.values k with
    | none => return none
    | some i => do
      let e ← ofRes (Res.unwrap a.values[i]?)
      user
      let t ← ofRes (Res.sub a.totalSize (sz e))
      set { a with totalSize := t, values := swapRemove a.values i }
      return some e

/-- src/array/building_block.rs 162-174: the sort is that of the keys (a parameter). -/
def arrayTakeMultiple [LinearOrder K] (sz : K × V → Nat) (ks : List K) :
    M (Array K V) (List (K × V) × List K) :=
  withState fun a => do
    user
    arrayTakeLoop sz a.values.length (sortKeys ks) []

/-- src/array/building_block.rs. -/
def array [LinearOrder K] (sz : K × V → Nat) (srt srtS : Sorter (K × V))
    (left : Nat → List (K × V) → List (K × V)) : Unwinding (Array K V) K V where
  contains k := withState fun a => do user; return Array.contains (K := K) (V := V) a k
  take k := arrayTake sz k
  takeMultiple ks := arrayTakeMultiple sz ks
  pop n := arrayPop sz srt left n
  push l := arrayPush sz srt srtS left l
  flush := withState fun a => do
    set { a with totalSize := 0, values := [] }
    return a.values

/-! ## Exclusive -/

/-- src/exclusive/building_block.rs 31-148. -/
def exclusive [LinearOrder K] (F B : Block K V) (UF : Unwinding F.State K V)
    (UB : Unwinding B.State K V) : Unwinding (F.State × B.State) K V where
  contains k := do
    if ← fst (UF.contains k) then return true
    snd (UB.contains k)
  take k := do
    match ← fst (UF.take k) with
    | some x => return some x
    | none => snd (UB.take k)
  takeMultiple ks := do
    user
    let (front, keys) ← fst (UF.takeMultiple (sortKeys ks))
    user
    let keys := (front.map Prod.fst).foldl removeFound keys
    let (back, keys) ← snd (UB.takeMultiple keys)
    user
    let keys := (back.map Prod.fst).foldl removeFound keys
    return (front ++ back, keys)
  pop size := withState fun s => do
    let v ← snd (UB.pop size)
    withState fun s' => do
      let evicted ← ofRes (Res.sub (B.size s.2) (B.size s'.2))
      if evicted < size then
        let v' ← fst (UF.pop (size - evicted))
        return v ++ v'
      else return v
  push elements := do
    let popped ← fst (UF.push elements)
    snd (UB.push popped)
  flush := do
    let back ← snd UB.flush
    let front ← fst UF.flush
    let front ← snd (UB.push front)
    let newBack ← snd UB.flush
    return back ++ (front ++ newBack)

/-! ## Batch -/

section Batch

variable (C : Block K V) (U : Unwinding C.State K V)

/-- src/batch/building_block.rs 26-28.  The first argument has the length of the list. -/
def batchContains (k : K) : List C.State → M (List C.State) Bool
  | [] => return false
  | _ :: cs => do
    if ← head (U.contains k) then return true
    tail (batchContains k cs)

/-- src/batch/building_block.rs 35-37. -/
def batchTake (k : K) : List C.State → M (List C.State) (Option (K × V))
  | [] => return none
  | _ :: cs => do
    match ← head (U.take k) with
    | some e => return some e
    | none => tail (batchTake k cs)

/-- src/batch/building_block.rs 47-56. -/
def batchTakeMultiple : List C.State → List K → M (List C.State) (List (K × V) × List K)
  | [], ks => return ([], ks)
  | _ :: cs, ks =>
    match ks with
    | [] => return ([], [])
    | k :: ks' => do
      let (out, ks) ← head (U.takeMultiple (k :: ks'))
      let (outs, ks) ← tail (batchTakeMultiple cs ks)
      return (out ++ outs, ks)

/-- src/batch/building_block.rs 72-81, on the list in iteration order. -/
def batchPopLoop : List C.State → Nat → M (List C.State) (List (K × V))
  | [], _ => return []
  | c :: cs, size => do
    let (out, d) ← head (do
      let out ← U.pop size
      withState fun c' => do
        let d ← ofRes (Res.sub (C.size c) (C.size c'))
        return (out, d))
    if d ≥ size then return out
    let outs ← tail (batchPopLoop cs (size - d))
    return out ++ outs

/-- src/batch/building_block.rs 100-113: the batches are taken out of the list (`pop_front`) and put in a local list, with
which they are lost when `push` of one of them panics. -/
def batchPushLoop : List C.State → List C.State → List (K × V) → M (List C.State) (List (K × V))
  | cs, used, [] => do set (cs ++ used); return []
  | [], used, v :: vs => do set used; return (v :: vs)
  | c :: cs, used, v :: vs => do
    set cs
    let (out, c) ← onLocal (U.push (v :: vs)) c
    batchPushLoop cs (used ++ [c]) out

/-- src/batch/building_block.rs 117-124. -/
def batchFlush : List C.State → M (List C.State) (List (K × V))
  | [] => return []
  | _ :: cs => do
    let out ← head U.flush
    let outs ← tail (batchFlush cs)
    return out ++ outs

/-- src/batch/building_block.rs. -/
def batch : Unwinding (List C.State) K V where
  contains k := withState fun s => batchContains C U k s
  take k := withState fun s => batchTake C U k s
  takeMultiple ks := withState fun s => batchTakeMultiple C U s ks
  pop size := withState fun s =>
    zoom List.reverse (fun l _ => l.reverse) (batchPopLoop C U s.reverse size)
  push l := withState fun s => batchPushLoop C U s [] l
  flush := withState fun s => batchFlush C U s

end Batch

/-! ## FlushStopper, dynamic containers, Decorator, Profiler -/

/-- src/flush_stopper/building_block.rs 4-35. -/
def flushStopper {S : Type} (U : Unwinding S K V) : Unwinding S K V where
  contains := U.contains
  take := U.take
  takeMultiple := U.takeMultiple
  pop := U.pop
  push := U.push
  flush := pure []

/-- src/traits/building_block.rs 80-82. -/
def defaultTakeMultiple {S : Type} (take : K → M S (Option (K × V))) : List K → M S (List (K × V))
  | [] => return []
  | k :: ks => do
    let o ← take k
    let out ← defaultTakeMultiple take ks
    return o.toList ++ out

/-- src/objsafe/building_block.rs 12-40. -/
def viaDefault {S : Type} (U : Unwinding S K V) : Unwinding S K V where
  contains := U.contains
  take := U.take
  takeMultiple ks := do
    let out ← defaultTakeMultiple U.take ks
    return (out, ks)
  pop := U.pop
  push := U.push
  flush := U.flush

/-- A container of one of several types. -/
def anyOf {ι : Type} {S : ι → Type} (U : ∀ i, Unwinding (S i) K V) : Unwinding (Σ i, S i) K V where
  contains k := sigma fun i => (U i).contains k
  take k := sigma fun i => (U i).take k
  takeMultiple ks := sigma fun i => (U i).takeMultiple ks
  pop n := sigma fun i => (U i).pop n
  push l := sigma fun i => (U i).push l
  flush := sigma fun i => (U i).flush

/-- src/decorator/building_block.rs 15-112: elements are wrapped before the container is called. -/
def decorator (D : Decoration V) {S : Type} (U : Unwinding S K D.Item) :
    Unwinding (S × D.Factory) K V where
  contains k := fst (U.contains k)
  take k := do let o ← fst (U.take k); return o.map (strip D)
  takeMultiple ks := do let (out, ks) ← fst (U.takeMultiple ks); return (out.map (strip D), ks)
  pop n := do let out ← fst (U.pop n); return out.map (strip D)
  push l := withState fun s => do
    set (s.1, (wrapAll D s.2 l).2)
    let out ← fst (U.push (wrapAll D s.2 l).1)
    return out.map (strip D)
  flush := do let out ← fst U.flush; return out.map (strip D)

/-- src/profiler/building_block.rs 48-194: statistics are updated when the container has answered. -/
def profiler (C : Block K V) (U : Unwinding C.State K V) : Unwinding (C.State × Stats) K V where
  contains k := do
    let b ← fst (U.contains k)
    withState fun s => do
      set (s.1, Stats.hitOrMiss { s.2 with contains := s.2.contains.add 1 0 } b)
      return b
  take k := withState fun s => do
    let o ← fst (U.take k)
    withState fun s' => do
      set (s'.1, Stats.hitOrMiss
        { s.2 with take := s.2.take.add 1 (sizeDiff (C.size s.1) (C.size s'.1)) } o.isSome)
      return o
  takeMultiple ks := withState fun s => do
    let (out, ks') ← fst (U.takeMultiple ks)
    withState fun s' => do
      let st := { s.2 with take := s.2.take.add ks.length (sizeDiff (C.size s.1) (C.size s'.1)) }
      let misses ← ofRes (Res.sub ks.length out.length)
      set (s'.1, { st with hit := st.hit.add out.length 0, miss := st.miss.add misses 0 })
      return (out, ks')
  pop n := withState fun s => do
    let out ← fst (U.pop n)
    withState fun s' => do
      let d ← ofRes (Res.sub (C.size s.1) (C.size s'.1))
      set (s'.1, { s.2 with pop := s.2.pop.add d (sizeDiff (C.size s.1) (C.size s'.1)) })
      return out
  push l := withState fun s => do
    let out ← fst (U.push l)
    withState fun s' => do
      set (s'.1, { s.2 with push := s.2.push.add l.length 0 })
      return out
  flush := withState fun s => do
    let out ← fst U.flush
    withState fun s' => do
      let st := { s.2 with flush := s.2.flush.add 1 (sizeDiff (C.size s.1) (C.size s'.1)) }
      set (s'.1, { st with flushIter := st.flushIter.add (out.length + 1) 0 })
      return out

/-! ## BTree -/

section BTree

variable [LinearOrder K] [LinearOrder V]

/-- src/btree/building_block.rs 143-152: the key is removed from the map, then `element_size` is called, then the size and
the set change.  (Comparisons are taken to return in this section.) -/
def btreeTake (sz : K × V → Nat) (k : K) : M (BTree K V) (Option (K × V)) := withState fun t =>
  match mapRemove t.map k with
  | (none, _) => return none
  | (some v, map) => do
    set { t with map := map }
    user
    let total ← ofRes (Res.sub t.totalSize (sz (k, v)))
    set { t with totalSize := total, set := t.set.erase (v, k), map := map }
    return some (k, v)

/-- src/btree/building_block.rs 132-139. -/
def btreeRemoveAll : List (V × K) → M (BTree K V) (List (K × V))
  | [] => return []
  | (v, k) :: l => withState fun t => do
    set { t with map := (mapRemove t.map k).2 }
    let v' ← ofRes (Res.unwrap (mapRemove t.map k).1)
    if v' = v then
      let out ← btreeRemoveAll l
      return (k, v') :: out
    else fail

/-- src/btree/building_block.rs 111-141: `element_size` is called before any change. -/
def btreePop (sz : K × V → Nat) (size : Nat) : M (BTree K V) (List (K × V)) := withState fun t => do
  if t.map = [] then return []
  if t.totalSize ≤ size then
    set t.flush.2
    return t.flush.1
  user
  let (_, cutSize, o) := findCutAtSize (fun e : V × K => sz (e.2, e.1)) size t.set
  let e ← ofRes (Res.unwrap o)
  let total ← ofRes (Res.sub t.totalSize cutSize)
  set { t with totalSize := total, set := t.set.filter (fun x => decide (¬ pairLe e x)) }
  btreeRemoveAll (t.set.filter (fun x => decide (pairLe e x)))

/-- src/btree/building_block.rs 69-100: `element_size` of the elements, then as `take_multiple` and `pop`. -/
def btreePush (sz : K × V → Nat) (elements : List (K × V)) : M (BTree K V) (List (K × V)) :=
  withState fun t => do
    user
    let size := total sz elements
    if size ≥ t.capacity then
      set { t.flush.2.insertUnchecked elements with totalSize := size }
      if size > t.capacity then
        let out' ← btreePop sz (size - t.capacity)
        return t.flush.1 ++ out'
      else return t.flush.1
    else
      let out ← defaultTakeMultiple (btreeTake sz) (elements.map Prod.fst)
      withState fun t => do
        let room ← ofRes (Res.sub t.capacity t.totalSize)
        let out' ← if room < size then btreePop sz (size - room) else pure []
        withState fun t => do
          set { t.insertUnchecked elements with totalSize := (t.insertUnchecked elements).totalSize + size }
          return out ++ out'

/-- src/btree/building_block.rs. -/
def btree (sz : K × V → Nat) : Unwinding (BTree K V) K V where
  contains k := withState fun t => return t.contains k
  take k := btreeTake sz k
  takeMultiple ks := do
    let out ← defaultTakeMultiple (btreeTake sz) ks
    return (out, ks)
  pop n := btreePop sz n
  push l := btreePush sz l
  flush := withState fun t => do
    set t.flush.2
    return t.flush.1

end BTree

/-! ## Inclusive -/

section Inclusive

open Inclusive

/-- src/inclusive/building_block.rs 128-139. -/
def inclusivePopLoop {S : Type} (UF : Unwinding S K (InclCell V)) :
    List (K × InclCell V) → M S (List (K × V))
  | [] => return []
  | e :: rest =>
    if e.2.cloned then do
      let o ← UF.take e.1
      let x ← ofRes (Res.unwrap o)
      let out ← inclusivePopLoop UF rest
      return unwrap x :: out
    else do
      let out ← inclusivePopLoop UF rest
      return unwrap e :: out

/-- src/inclusive/building_block.rs 17-228: the back is changed first; what it gave is lost when the front panics. -/
def inclusive {S T : Type} (UF : Unwinding S K (InclCell V)) (UB : Unwinding T K (InclCell V)) :
    Unwinding (S × T) K V where
  contains k := do
    if ← fst (UF.contains k) then return true
    snd (UB.contains k)
  take k := do
    match ← snd (UB.take k) with
    | none => return none
    | some e =>
      if e.2.cloned then do
        let o ← fst (UF.take k)
        let x ← ofRes (Res.unwrap o)
        return some (unwrap x)
      else return some (unwrap e)
  takeMultiple ks := do
    let (back, ks) ← snd (UB.takeMultiple ks)
    let (front, _) ← fst (UF.takeMultiple (clonedKeys back))
    return (((back.filter fun e => !e.2.cloned) ++ front).map unwrap, ks)
  pop size := do
    let out ← snd (UB.pop size)
    fst (inclusivePopLoop UF out)
  push elements := do
    let backPop ← snd (UB.push (elements.map wrap))
    let (front, _) ← fst (UF.takeMultiple (clonedKeys backPop))
    return (backPop.filter fun e => !e.2.cloned).map unwrap ++ front.map unwrap
  flush := do
    let front ← fst UF.flush
    let front := front.filterMap fun e =>
      if e.2.updated then some (e.1, InclCell.new e.2.value) else none
    let _ ← snd (UB.takeMultiple (front.map Prod.fst))
    let r ← snd (UB.push front)
    if r.length = 0 then
      let out ← snd UB.flush
      return out.map unwrap
    else fail

end Inclusive

/-! ## Associative -/

section Associative

variable (C : Block K V) (U : Unwinding C.State K V)

/-- src/associative/building_block.rs 89-95 and 98-100. -/
def assocTakeLoop : List C.State → List (List K) → M (List C.State) (List (K × V) × List K)
  | _ :: cs, g :: gs => do
    if g = [] then
      tail (assocTakeLoop cs gs)
    else
      let (out, ks) ← head (U.takeMultiple g)
      let (outs, kss) ← tail (assocTakeLoop cs gs)
      return (out ++ outs, ks ++ kss)
  | _, _ => return ([], [])

/-- src/associative/building_block.rs 251-253. -/
def assocPushLoop : List C.State → List (List (K × V)) → M (List C.State) (List (K × V))
  | _ :: cs, g :: gs => do
    let out ← head (U.push g)
    let outs ← tail (assocPushLoop cs gs)
    return out ++ outs
  | _, _ => return []

/-- src/associative/building_block.rs 217-222. -/
def assocPopLoop (target : Nat) : List (Nat × Nat) → M (List C.State) (List (K × V))
  | [] => return []
  | (bucketSize, bucketIndex) :: rest => do
    let out ← atIndex bucketIndex (do
      let popSize ← ofRes (Res.sub bucketSize target)
      U.pop popSize)
    let outs ← assocPopLoop target rest
    return out ++ outs

/-- src/associative/building_block.rs. -/
def associative (hash : K → Nat) : Unwinding (List C.State) K V where
  contains k := withState fun s => do
    user
    let i ← ofRes (Associative.set hash s.length k)
    atIndex i (U.contains k)
  take k := withState fun s => do
    user
    let i ← ofRes (Associative.set hash s.length k)
    atIndex i (U.take k)
  takeMultiple ks := withState fun s => do
    user
    let g ← ofRes (Associative.distribute hash id s.length ks (List.replicate s.length []))
    assocTakeLoop C U s g
  pop size := withState fun s => do
    let sizes := s.map C.size
    let poppedSize := sizes.sum
    if size = 0 ∨ poppedSize = 0 then return []
    if size ≥ poppedSize then batchFlush C U s
    else
      let buckets := (List.range s.length).zip sizes
      let (target, buckets) ← ofRes (Associative.targetLoop size buckets poppedSize)
      assocPopLoop C U target buckets
  push l := withState fun s => do
    user
    let g ← ofRes (Associative.distribute hash Prod.fst s.length l (List.replicate s.length []))
    assocPushLoop C U s g
  flush := withState fun s => batchFlush C U s

end Associative

/-! ## Any nesting -/

/-- The methods of a container assembled from building blocks (Model/Stack).  `left` is what sorts that are interrupted
leave.  (`Sequential` is as its container here; what it does after a panic is in Model/Sequential.) -/
def stack [LinearOrder K] (left : (W : Type) → Nat → List (K × W) → List (K × W)) :
    {V : Type} → (t : Stack K V) → Unwinding t.block.State K V
  | V, .array sz srt srtS => array sz srt srtS (left V)
  | _, .exclusive f b => exclusive f.block b.block (stack left f) (stack left b)
  | _, .batch c => batch c.block (stack left c)
  | _, .associative hash c => associative c.block (stack left c) hash
  | _, .flushStopper c => flushStopper (stack left c)
  | _, .sequential c => stack left c
  | _, .dyn _ c => viaDefault (anyOf fun i => stack left (c i))
  | _, .decorator D _ c => decorator D (stack left c)
  | _, .profiler c => profiler c.block (stack left c)

end Byoc.Unwind
