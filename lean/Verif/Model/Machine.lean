import Verif.Model.Stack
import Verif.Model.BTree

/-!
# Machine words

The other files compute sizes with natural numbers, and take an underflowing subtraction as a panic.  Here
`usize` has 64 bits and the arithmetic is the one of the compiler: checked (debug profile: an overflow or an
underflow panics) or wrapping (release profile).  Same source lines as the functions of the same names in
Model/Array, Model/BTree, Model/Combinators and Model/Stack.
-/

namespace Byoc

variable {K V : Type}

/-- `usize::MAX + 1`, for 64 bit targets. -/
def word : Nat := 2 ^ 64

/-- `+` and `-` on `usize`. -/
structure Arith where
  add : Nat → Nat → Res Nat
  sub : Nat → Nat → Res Nat

/-- Debug profile: overflow checks. -/
def Arith.checked : Arith where
  add a b := if a + b < word then .ok (a + b) else .panic
  sub a b := if b ≤ a then .ok (a - b) else .panic

/-- Release profile: two's complement wrapping. -/
def Arith.wrapping : Arith where
  add a b := .ok ((a + b) % word)
  sub a b := .ok ((a + (word - b)) % word)

/-- `iter().map(size).sum()`: a fold from 0. -/
def sumW {E : Type} (ar : Arith) (sz : E → Nat) : List E → Nat → Res Nat
  | [], acc => .ok acc
  | e :: l, acc => do
    let acc ← ar.add acc (sz e)
    sumW ar sz l acc

/-- `iter().map(|c| c.capacity()).sum()`, where the calls may panic too. -/
def sumResW {S : Type} (ar : Arith) (f : S → Res Nat) : List S → Nat → Res Nat
  | [], acc => .ok acc
  | c :: l, acc => do
    let n ← f c
    let acc ← ar.add acc n
    sumResW ar f l acc

/-- src/utils/size.rs 27-43. -/
def findCutGoW {E : Type} (ar : Arith) (sz : E → Nat) (size : Nat) :
    List E → Nat × Nat × Option E → Res (Nat × Nat × Option E)
  | [], st => .ok st
  | e :: rest, (_, acc, _) => do
    let t ← ar.add acc (sz e)
    if t < size then findCutGoW ar sz size rest (rest.length, t, some e)
    else return (rest.length, t, some e)

/-- src/utils/size.rs 11-44. -/
def findCutAtSizeW {E : Type} (ar : Arith) (sz : E → Nat) (size : Nat) (l : List E) :
    Res (Nat × Nat × Option E) :=
  findCutGoW ar sz size l.reverse (0, 0, none)

/-- src/traits/building_block.rs 19-120, with calls of `capacity()` and `size()` that may panic. -/
structure WBlock (K V S : Type) where
  capacity : S → Res Nat
  size : S → Res Nat
  contains : S → K → Res (Bool × S)
  take : S → K → Res (Option (K × V) × S)
  takeMultiple : S → List K → Res (List (K × V) × List K × S)
  pop : S → Nat → Res (List (K × V) × S)
  push : S → List (K × V) → Res (List (K × V) × S)
  flush : S → Res (List (K × V) × S)

/-! ## Array -/

namespace Array

/-- src/array/building_block.rs 55-80. -/
def popW (ar : Arith) (sz : K × V → Nat) (srt : Sorter (K × V)) (a : Array K V) (size : Nat) :
    Res (List (K × V) × Array K V) := do
  if a.values = [] then return ([], a)
  if a.totalSize ≤ size then
    return (a.values, { a with totalSize := 0, values := [] })
  let sorted := srt.run a.values
  let (cut, cutSize, _) ← findCutAtSizeW ar sz size sorted
  let t ← ar.sub a.totalSize cutSize
  return (sorted.drop cut, { a with totalSize := t, values := sorted.take cut })

/-- src/array/building_block.rs 101-136. -/
def pushW (ar : Arith) (sz : K × V → Nat) (srt srtS : Sorter (K × V)) (a : Array K V) (elements : List (K × V)) :
    Res (List (K × V) × Array K V) := do
  let size ← sumW ar sz elements 0
  let room ← ar.sub a.capacity a.totalSize
  if size ≤ room then
    let t ← ar.add a.totalSize size
    return ([], { a with totalSize := t, values := a.values ++ elements })
  if size = a.capacity then
    return (a.values, { a with totalSize := size, values := elements })
  if size > a.capacity then
    let sorted := srtS.run elements
    let over ← ar.sub size a.capacity
    let (cut, cutSize, _) ← findCutAtSizeW ar sz over sorted
    let t ← ar.sub size cutSize
    return (a.values ++ sorted.drop cut, { a with totalSize := t, values := sorted.take cut })
  let n ← ar.sub size room
  let (out, a') ← a.popW ar sz srt n
  let t ← ar.add a'.totalSize size
  return (out, { a' with totalSize := t, values := a'.values ++ elements })

/-- src/array/building_block.rs 138-153. -/
def takeW [DecidableEq K] (ar : Arith) (sz : K × V → Nat) (a : Array K V) (k : K) :
    Res (Option (K × V) × Array K V) :=
  match findKey a.values k with
  | none => .ok (none, a)
  | some i => do
    let e ← Res.unwrap a.values[i]?
    let t ← ar.sub a.totalSize (sz e)
    return (some e, { a with totalSize := t, values := swapRemove a.values i })

/-- src/array/building_block.rs 165-172. -/
def takeMultipleLoopW [LinearOrder K] (ar : Arith) (sz : K × V → Nat) :
    Nat → Array K V → List K → List (K × V) → Res (List (K × V) × List K × Array K V)
  | 0, a, keys, ret => .ok (ret, keys, a)
  | i + 1, a, keys, ret => do
    let e ← Res.unwrap a.values[i]?
    match bsearch keys e.1 with
    | none => takeMultipleLoopW ar sz i a keys ret
    | some j => do
      let t ← ar.sub a.totalSize (sz e)
      takeMultipleLoopW ar sz i { a with totalSize := t, values := swapRemove a.values i }
        (keys.eraseIdx j) (ret ++ [e])

end Array

/-- src/array/building_block.rs. -/
def warray [LinearOrder K] (ar : Arith) (sz : K × V → Nat) (srt srtS : Sorter (K × V)) :
    WBlock K V (Array K V) where
  capacity a := .ok a.capacity
  size a := .ok a.totalSize
  contains a k := .ok (a.contains k, a)
  take a k := a.takeW ar sz k
  takeMultiple a ks := Array.takeMultipleLoopW ar sz a.values.length a (sortKeys ks) []
  pop a n := a.popW ar sz srt n
  push a l := a.pushW ar sz srt srtS l
  flush a := .ok a.flush

/-! ## BTree -/

namespace BTree

variable [LinearOrder K] [LinearOrder V]

/-- src/btree/building_block.rs 111-141. -/
def popW (ar : Arith) (sz : K × V → Nat) (t : BTree K V) (size : Nat) : Res (List (K × V) × BTree K V) := do
  if t.map = [] then return ([], t)
  if t.totalSize ≤ size then return t.flush
  let (_, cutSize, o) ← findCutAtSizeW ar (fun e : V × K => sz (e.2, e.1)) size t.set
  let e ← Res.unwrap o
  let total ← ar.sub t.totalSize cutSize
  let outSet := t.set.filter (fun x => decide (pairLe e x))
  let set := t.set.filter (fun x => decide (¬ pairLe e x))
  let (out, map) ← removeAll t.map outSet
  return (out, { t with totalSize := total, set := set, map := map })

/-- src/btree/building_block.rs 143-152. -/
def takeW (ar : Arith) (sz : K × V → Nat) (t : BTree K V) (k : K) : Res (Option (K × V) × BTree K V) :=
  match mapRemove t.map k with
  | (none, _) => .ok (none, t)
  | (some v, map) => do
    let total ← ar.sub t.totalSize (sz (k, v))
    return (some (k, v), { t with totalSize := total, set := t.set.erase (v, k), map := map })

/-- src/btree/building_block.rs 69-100. -/
def pushW (ar : Arith) (sz : K × V → Nat) (t : BTree K V) (elements : List (K × V)) :
    Res (List (K × V) × BTree K V) := do
  let size ← sumW ar sz elements 0
  if size ≥ t.capacity then
    let (out, t) := t.flush
    let t := { t.insertUnchecked elements with totalSize := size }
    if size > t.capacity then
      let over ← ar.sub size t.capacity
      let (out', t) ← t.popW ar sz over
      return (out ++ out', t)
    else return (out, t)
  else
    let (out, t) ← defaultTakeMultiple (takeW ar sz) t (elements.map Prod.fst)
    let room ← ar.sub t.capacity t.totalSize
    let (out', t) ← if room < size then do
        let n ← ar.sub size room
        t.popW ar sz n
      else pure ([], t)
    let t := t.insertUnchecked elements
    let total ← ar.add t.totalSize size
    return (out ++ out', { t with totalSize := total })

end BTree

/-- src/btree/building_block.rs. -/
def wbtree [LinearOrder K] [LinearOrder V] (ar : Arith) (sz : K × V → Nat) : WBlock K V (BTree K V) where
  capacity t := .ok t.capacity
  size t := .ok t.totalSize
  contains t k := .ok (t.contains k, t)
  take t k := t.takeW ar sz k
  takeMultiple t ks := do
    let (out, t) ← defaultTakeMultiple (BTree.takeW ar sz) t ks
    return (out, ks, t)
  pop t n := t.popW ar sz n
  push t l := t.pushW ar sz l
  flush t := .ok t.flush

/-! ## Containers of containers -/

/-- src/exclusive/building_block.rs 14-148. -/
def wexclusive [LinearOrder K] {S R : Type} (ar : Arith) (F : WBlock K V S) (B : WBlock K V R) :
    WBlock K V (S × R) where
  capacity s := do
    let a ← F.capacity s.1
    let b ← B.capacity s.2
    ar.add a b
  size s := do
    let a ← F.size s.1
    let b ← B.size s.2
    ar.add a b
  contains s k := do
    let (b, f) ← F.contains s.1 k
    if b then return (true, (f, s.2))
    let (b, r) ← B.contains s.2 k
    return (b, (f, r))
  take s k := do
    let (o, f) ← F.take s.1 k
    match o with
    | some x => return (some x, (f, s.2))
    | none => do
      let (o, b) ← B.take s.2 k
      return (o, (f, b))
  takeMultiple s ks := do
    let keys := sortKeys ks
    let (front, keys, f) ← F.takeMultiple s.1 keys
    let keys := (front.map Prod.fst).foldl removeFound keys
    let (back, keys, b) ← B.takeMultiple s.2 keys
    let keys := (back.map Prod.fst).foldl removeFound keys
    return (front ++ back, keys, (f, b))
  pop s size := do
    let oldSize ← B.size s.2
    let (v, b) ← B.pop s.2 size
    let newSize ← B.size b
    let evicted ← ar.sub oldSize newSize
    if evicted < size then
      let rest ← ar.sub size evicted
      let (v', f) ← F.pop s.1 rest
      return (v ++ v', (f, b))
    else return (v, (s.1, b))
  push s elements := do
    let (popped, f) ← F.push s.1 elements
    let (out, b) ← B.push s.2 popped
    return (out, (f, b))
  flush s := do
    let (back, b) ← B.flush s.2
    let (front, f) ← F.flush s.1
    let (front, b) ← B.push b front
    let (newBack, b) ← B.flush b
    return (back ++ (front ++ newBack), (f, b))

namespace Batch

/-- src/batch/building_block.rs 26-28. -/
def containsW {S : Type} (C : WBlock K V S) : List S → K → Res (Bool × List S)
  | [], _ => .ok (false, [])
  | c :: cs, k => do
    let (b, c) ← C.contains c k
    if b then return (true, c :: cs)
    let (b, cs) ← containsW C cs k
    return (b, c :: cs)

/-- src/batch/building_block.rs 35-37. -/
def takeW {S : Type} (C : WBlock K V S) : List S → K → Res (Option (K × V) × List S)
  | [], _ => .ok (none, [])
  | c :: cs, k => do
    let (o, c) ← C.take c k
    match o with
    | some e => return (some e, c :: cs)
    | none => do
      let (o, cs) ← takeW C cs k
      return (o, c :: cs)

/-- src/batch/building_block.rs 47-56. -/
def takeMultipleW {S : Type} (C : WBlock K V S) : List S → List K → Res (List (K × V) × List K × List S)
  | [], ks => .ok ([], ks, [])
  | c :: cs, ks =>
    match ks with
    | [] => .ok ([], [], c :: cs)
    | k :: ks' => do
      let (out, ks, c) ← C.takeMultiple c (k :: ks')
      let (outs, ks, cs) ← takeMultipleW C cs ks
      return (out ++ outs, ks, c :: cs)

/-- src/batch/building_block.rs 72-81. -/
def popLoopW {S : Type} (ar : Arith) (C : WBlock K V S) : List S → Nat → Res (List (K × V) × List S)
  | [], _ => .ok ([], [])
  | c :: cs, size => do
    let n ← C.size c
    let (out, c') ← C.pop c size
    let n' ← C.size c'
    let popped ← ar.sub n n'
    if popped ≥ size then return (out, c' :: cs)
    let rest ← ar.sub size popped
    let (outs, cs) ← popLoopW ar C cs rest
    return (out ++ outs, c' :: cs)

/-- src/batch/building_block.rs 67-83. -/
def popW {S : Type} (ar : Arith) (C : WBlock K V S) (s : List S) (size : Nat) :
    Res (List (K × V) × List S) := do
  let (out, r) ← popLoopW ar C s.reverse size
  return (out, r.reverse)

/-- src/batch/building_block.rs 100-110. -/
def pushLoopW {S : Type} (C : WBlock K V S) : List S → List (K × V) →
    Res (List (K × V) × List S × List S)
  | cs, [] => .ok ([], cs, [])
  | [], v :: vs => .ok (v :: vs, [], [])
  | c :: cs, v :: vs => do
    let (out, c) ← C.push c (v :: vs)
    let (out, rest, used) ← pushLoopW C cs out
    return (out, rest, c :: used)

/-- src/batch/building_block.rs 98-113. -/
def pushW {S : Type} (C : WBlock K V S) (s : List S) (values : List (K × V)) :
    Res (List (K × V) × List S) := do
  let (out, rest, used) ← pushLoopW C s values
  return (out, rest ++ used)

/-- src/batch/building_block.rs 117-124 (also src/associative/building_block.rs 26-33). -/
def flushW {S : Type} (C : WBlock K V S) : List S → Res (List (K × V) × List S)
  | [] => .ok ([], [])
  | c :: cs => do
    let (out, c) ← C.flush c
    let (outs, cs) ← flushW C cs
    return (out ++ outs, c :: cs)

end Batch

/-- src/batch/building_block.rs. -/
def wbatch {S : Type} (ar : Arith) (C : WBlock K V S) : WBlock K V (List S) where
  capacity s := sumResW ar C.capacity s 0
  size s := sumResW ar C.size s 0
  contains := Batch.containsW C
  take := Batch.takeW C
  takeMultiple := Batch.takeMultipleW C
  pop := Batch.popW ar C
  push := Batch.pushW C
  flush := Batch.flushW C

/-- src/flush_stopper/building_block.rs 4-35. -/
def wflushStopper {S : Type} (C : WBlock K V S) : WBlock K V S := { C with flush := fun s => .ok ([], s) }

/-- src/objsafe/building_block.rs 12-40, over any of several types. -/
def wdyn {ι : Type} {S : ι → Type} (C : ∀ i, WBlock K V (S i)) : WBlock K V (Σ i, S i) where
  capacity s := (C s.1).capacity s.2
  size s := (C s.1).size s.2
  contains s k := do let (b, c) ← (C s.1).contains s.2 k; return (b, ⟨s.1, c⟩)
  take s k := do let (o, c) ← (C s.1).take s.2 k; return (o, ⟨s.1, c⟩)
  takeMultiple s ks := do
    let (out, s) ← defaultTakeMultiple (S := Σ i, S i)
      (fun s k => do let (o, c) ← (C s.1).take s.2 k; return (o, ⟨s.1, c⟩)) s ks
    return (out, ks, s)
  pop s n := do let (out, c) ← (C s.1).pop s.2 n; return (out, ⟨s.1, c⟩)
  push s l := do let (out, c) ← (C s.1).push s.2 l; return (out, ⟨s.1, c⟩)
  flush s := do let (out, c) ← (C s.1).flush s.2; return (out, ⟨s.1, c⟩)

/-- src/decorator/building_block.rs 15-112. -/
def wdecorator {S : Type} (D : Decoration V) (C : WBlock K D.Item S) : WBlock K V (S × D.Factory) where
  capacity s := C.capacity s.1
  size s := C.size s.1
  contains s k := do
    let (b, c) ← C.contains s.1 k
    return (b, (c, s.2))
  take s k := do
    let (o, c) ← C.take s.1 k
    return (o.map (strip D), (c, s.2))
  takeMultiple s ks := do
    let (out, ks, c) ← C.takeMultiple s.1 ks
    return (out.map (strip D), ks, (c, s.2))
  pop s n := do
    let (out, c) ← C.pop s.1 n
    return (out.map (strip D), (c, s.2))
  push s l := do
    let (l, f) := wrapAll D s.2 l
    let (out, c) ← C.push s.1 l
    return (out.map (strip D), (c, f))
  flush s := do
    let (out, c) ← C.flush s.1
    return (out.map (strip D), (c, s.2))

/-- src/profiler/building_block.rs 48-194.  Simplification: the statistics stay unbounded (in the code they
wrap, in both profiles). -/
def wprofiler {S : Type} (ar : Arith) (C : WBlock K V S) : WBlock K V (S × Stats) where
  capacity s := C.capacity s.1
  size s := C.size s.1
  contains s k := do
    let (b, c) ← C.contains s.1 k
    let st := { s.2 with contains := s.2.contains.add 1 0 }
    return (b, (c, st.hitOrMiss b))
  take s k := do
    let s0 ← C.size s.1
    let (o, c) ← C.take s.1 k
    let s1 ← C.size c
    let st := { s.2 with take := s.2.take.add 1 (sizeDiff s0 s1) }
    return (o, (c, st.hitOrMiss o.isSome))
  takeMultiple s ks := do
    let n := ks.length
    let s0 ← C.size s.1
    let (out, ks, c) ← C.takeMultiple s.1 ks
    let s1 ← C.size c
    let st := { s.2 with take := s.2.take.add n (sizeDiff s0 s1) }
    let hits := out.length
    let misses ← ar.sub n hits
    return (out, ks, (c, { st with hit := st.hit.add hits 0, miss := st.miss.add misses 0 }))
  pop s n := do
    let before ← C.size s.1
    let s0 ← C.size s.1
    let (out, c) ← C.pop s.1 n
    let s1 ← C.size c
    let after ← C.size c
    let d ← ar.sub before after
    return (out, (c, { s.2 with pop := s.2.pop.add d (sizeDiff s0 s1) }))
  push s l := do
    let (out, c) ← C.push s.1 l
    return (out, (c, { s.2 with push := s.2.push.add l.length 0 }))
  flush s := do
    let s0 ← C.size s.1
    let (out, c) ← C.flush s.1
    let s1 ← C.size c
    let st := { s.2 with flush := s.2.flush.add 1 (sizeDiff s0 s1) }
    return (out, (c, { st with flushIter := st.flushIter.add (out.length + 1) 0 }))

namespace Associative

/-- src/associative/building_block.rs 89-95 and 98-100. -/
def takeMultipleLoopW {S : Type} (C : WBlock K V S) : List S → List (List K) →
    Res (List (K × V) × List K × List S)
  | c :: cs, g :: gs => do
    if g = [] then
      let (outs, ks, cs) ← takeMultipleLoopW C cs gs
      return (outs, ks, c :: cs)
    else
      let (out, ks, c) ← C.takeMultiple c g
      let (outs, kss, cs) ← takeMultipleLoopW C cs gs
      return (out ++ outs, ks ++ kss, c :: cs)
  | cs, _ => .ok ([], [], cs)

/-- src/associative/building_block.rs 251-253. -/
def pushLoopW {S : Type} (C : WBlock K V S) : List S → List (List (K × V)) → Res (List (K × V) × List S)
  | c :: cs, g :: gs => do
    let (out, c) ← C.push c g
    let (outs, cs) ← pushLoopW C cs gs
    return (out ++ outs, c :: cs)
  | cs, _ => .ok ([], cs)

/-- src/associative/building_block.rs 129-134: the sizes of the sets. -/
def sizesW {S : Type} (C : WBlock K V S) : List S → Res (List Nat)
  | [] => .ok []
  | c :: cs => do
    let n ← C.size c
    let ns ← sizesW C cs
    return n :: ns

/-- src/associative/building_block.rs 173-202 (see `targetLoop`). -/
def targetLoopW (ar : Arith) (size : Nat) : List (Nat × Nat) → Nat → Res (Nat × List (Nat × Nat))
  | [], poppedSize => do
    let _ ← ar.sub poppedSize size
    .panic
  | (bucketSize, bucketIndex) :: rest, poppedSize => do
    let d ← ar.sub poppedSize size
    let target := d / ((rest.length + 1) + 1)
    if bucketSize ≥ target then return (target, (bucketSize, bucketIndex) :: rest)
    else do
      let poppedSize ← ar.sub poppedSize bucketSize
      if poppedSize > size then targetLoopW ar size rest poppedSize
      else .panic

/-- src/associative/building_block.rs 217-222. -/
def popLoopW {S : Type} (ar : Arith) (C : WBlock K V S) (target : Nat) : List (Nat × Nat) → List S →
    Res (List (K × V) × List S)
  | [], s => .ok ([], s)
  | (bucketSize, bucketIndex) :: rest, s => do
    let c ← Res.unwrap s[bucketIndex]?
    let popSize ← ar.sub bucketSize target
    let (out, c) ← C.pop c popSize
    let (outs, s) ← popLoopW ar C target rest (s.set bucketIndex c)
    return (out ++ outs, s)

/-- src/associative/building_block.rs 123-225. -/
def popW {S : Type} (ar : Arith) (C : WBlock K V S) (s : List S) (size : Nat) :
    Res (List (K × V) × List S) := do
  let sizes ← sizesW C s
  let poppedSize ← sumW ar id sizes 0
  if size = 0 ∨ poppedSize = 0 then return ([], s)
  if size ≥ poppedSize then Batch.flushW C s
  else
    let buckets := (List.range s.length).zip sizes
    let (target, buckets) ← targetLoopW ar size buckets poppedSize
    popLoopW ar C target buckets s

end Associative

/-- src/associative/building_block.rs. -/
def wassociative {S : Type} (ar : Arith) (hash : K → Nat) (C : WBlock K V S) : WBlock K V (List S) where
  capacity s := sumResW ar C.capacity s 0
  size s := sumResW ar C.size s 0
  contains s k := do
    let i ← Associative.set hash s.length k
    let c ← Res.unwrap s[i]?
    let (b, c) ← C.contains c k
    return (b, s.set i c)
  take s k := do
    let i ← Associative.set hash s.length k
    let c ← Res.unwrap s[i]?
    let (o, c) ← C.take c k
    return (o, s.set i c)
  takeMultiple s ks := do
    let g ← Associative.distribute hash id s.length ks (List.replicate s.length [])
    Associative.takeMultipleLoopW C s g
  pop := Associative.popW ar C
  push s l := do
    let g ← Associative.distribute hash Prod.fst s.length l (List.replicate s.length [])
    Associative.pushLoopW C s g
  flush := Batch.flushW C

/-! ## Stacks, and histories -/

/-- The building block described, on machine words. -/
def Stack.wblock [LinearOrder K] (ar : Arith) : {V : Type} → (t : Stack K V) → WBlock K V t.block.State
  | _, .array sz srt srtS => warray ar sz srt srtS
  | _, .exclusive f b => wexclusive ar (f.wblock ar) (b.wblock ar)
  | _, .batch c => wbatch ar (c.wblock ar)
  | _, .associative hash c => wassociative ar hash (c.wblock ar)
  | _, .flushStopper c => wflushStopper (c.wblock ar)
  | _, .sequential c => c.wblock ar
  | _, .dyn _ c => wdyn fun i => (c i).wblock ar
  | _, .decorator D _ c => wdecorator D (c.wblock ar)
  | _, .profiler c => wprofiler ar (c.wblock ar)

/-- One call (as `Block.step`). -/
def WBlock.step {S : Type} (W : WBlock K V S) (s : S) : Op K V → Res (List (K × V) × S)
  | .contains k => do let (_, s') ← W.contains s k; pure ([], s')
  | .take k => do let (o, s') ← W.take s k; pure (o.toList, s')
  | .takeMultiple ks => do let (out, _, s') ← W.takeMultiple s ks; pure (out, s')
  | .pop n => W.pop s n
  | .push l => W.push s l
  | .flush => W.flush s

/-- A sequence of calls (as `Block.run`). -/
def WBlock.run {S : Type} (W : WBlock K V S) (s : S) : List (Op K V) → Res (List (K × V) × S)
  | [] => .ok ([], s)
  | op :: ops => do
    let (out, s') ← W.step s op
    let (outs, s'') ← W.run s' ops
    pure (out ++ outs, s'')

end Byoc
