import Verif.Model.Std

/-!
# Models of the building blocks built from other building blocks

`Exclusive`, `Batch`, `FlushStopper`, `Associative`, `Decorator`, `Profiler`, and the wrappers that
inherit the default `take_multiple` (`DynBuildingBlock`, `SharedPtr`), and `Sequential` used from one
thread.
-/

namespace Byoc

variable {K V : Type}

/-! ## Exclusive -/

/-- src/exclusive/building_block.rs 14-148 and src/exclusive/exclusive.rs 86-101. -/
def exclusive [LinearOrder K] (F B : Block K V) : Block K V where
  State := F.State × B.State
  -- lines 14-16
  capacity s := F.capacity s.1 + B.capacity s.2
  -- lines 22-24
  size s := F.size s.1 + B.size s.2
  -- lines 31-33
  contains s k := do
    let (b, f) ← F.contains s.1 k
    if b then return (true, (f, s.2))
    let (b, r) ← B.contains s.2 k
    return (b, (f, r))
  -- lines 40-45
  take s k := do
    let (o, f) ← F.take s.1 k
    match o with
    | some x => return (some x, (f, s.2))
    | none => do
      let (o, b) ← B.take s.2 k
      return (o, (f, b))
  -- lines 56-81
  takeMultiple s ks := do
    let keys := sortKeys ks
    let (front, keys, f) ← F.takeMultiple s.1 keys
    let keys := (front.map Prod.fst).foldl removeFound keys
    let (back, keys, b) ← B.takeMultiple s.2 keys
    let keys := (back.map Prod.fst).foldl removeFound keys
    return (front ++ back, keys, (f, b))
  -- lines 94-103
  pop s size := do
    let oldSize := B.size s.2
    let (v, b) ← B.pop s.2 size
    let evicted ← Res.sub oldSize (B.size b)
    if evicted < size then
      let (v', f) ← F.pop s.1 (size - evicted)
      return (v ++ v', (f, b))
    else return (v, (s.1, b))
  -- lines 111-113
  push s elements := do
    let (popped, f) ← F.push s.1 elements
    let (out, b) ← B.push s.2 popped
    return (out, (f, b))
  -- lines 140-146
  flush s := do
    let (back, b) ← B.flush s.2
    let (front, f) ← F.flush s.1
    let (front, b) ← B.push b front
    let (newBack, b) ← B.flush b
    return (back ++ (front ++ newBack), (f, b))

/-- src/exclusive/exclusive.rs 119-143: `downgrade`, the move of an element from the back to the
front done by `get` and `get_mut`. -/
def exclusiveDowngrade (F B : Block K V) (s : F.State × B.State) (k : K) :
    Res (Bool × (F.State × B.State)) := do
  let (o, b) ← B.take s.2 k
  match o with
  | none => return (false, (s.1, b))
  | some x => do
    let (popped, f) ← F.push s.1 [x]
    if popped = [] then return (true, (f, b))
    let (popped, b) ← B.push b popped
    if popped = [] then return (true, (f, b))
    else Res.panic

/-! ## Batch -/

namespace Batch

/-- src/batch/building_block.rs 26-28: `any`, short-circuiting. -/
def contains (C : Block K V) : List C.State → K → Res (Bool × List C.State)
  | [], _ => .ok (false, [])
  | c :: cs, k => do
    let (b, c) ← C.contains c k
    if b then return (true, c :: cs)
    let (b, cs) ← contains C cs k
    return (b, c :: cs)

/-- src/batch/building_block.rs 35-37: `find_map`. -/
def take (C : Block K V) : List C.State → K → Res (Option (K × V) × List C.State)
  | [], _ => .ok (none, [])
  | c :: cs, k => do
    let (o, c) ← C.take c k
    match o with
    | some e => return (some e, c :: cs)
    | none => do
      let (o, cs) ← take C cs k
      return (o, c :: cs)

/-- src/batch/building_block.rs 47-56. -/
def takeMultiple (C : Block K V) : List C.State → List K →
    Res (List (K × V) × List K × List C.State)
  | [], ks => .ok ([], ks, [])
  | c :: cs, ks =>
    match ks with
    | [] => .ok ([], [], c :: cs)
    | k :: ks' => do
      let (out, ks, c) ← C.takeMultiple c (k :: ks')
      let (outs, ks, cs) ← takeMultiple C cs ks
      return (out ++ outs, ks, c :: cs)

/-- src/batch/building_block.rs 72-81: the loop, over the batches in iteration (reverse) order. -/
def popLoop (C : Block K V) : List C.State → Nat → Res (List (K × V) × List C.State)
  | [], _ => .ok ([], [])
  | c :: cs, size => do
    let (out, c') ← C.pop c size
    let popped ← Res.sub (C.size c) (C.size c')
    if popped ≥ size then return (out, c' :: cs)
    let (outs, cs) ← popLoop C cs (size - popped)
    return (out ++ outs, c' :: cs)

/-- src/batch/building_block.rs 67-83. -/
def pop (C : Block K V) (s : List C.State) (size : Nat) : Res (List (K × V) × List C.State) := do
  let (out, r) ← popLoop C s.reverse size
  return (out, r.reverse)

/-- src/batch/building_block.rs 100-110: the loop; returns the elements left, the batches not
visited and the batches visited (`bb`). -/
def pushLoop (C : Block K V) : List C.State → List (K × V) →
    Res (List (K × V) × List C.State × List C.State)
  | cs, [] => .ok ([], cs, [])
  | [], v :: vs => .ok (v :: vs, [], [])
  | c :: cs, v :: vs => do
    let (out, c) ← C.push c (v :: vs)
    let (out, rest, used) ← pushLoop C cs out
    return (out, rest, c :: used)

/-- src/batch/building_block.rs 98-113. -/
def push (C : Block K V) (s : List C.State) (values : List (K × V)) :
    Res (List (K × V) × List C.State) := do
  let (out, rest, used) ← pushLoop C s values
  return (out, rest ++ used)

/-- src/batch/building_block.rs 117-124 (also src/associative/building_block.rs 26-33). -/
def flush (C : Block K V) : List C.State → Res (List (K × V) × List C.State)
  | [] => .ok ([], [])
  | c :: cs => do
    let (out, c) ← C.flush c
    let (outs, cs) ← flush C cs
    return (out ++ outs, c :: cs)

end Batch

/-- src/batch/building_block.rs. -/
def batch (C : Block K V) : Block K V where
  State := List C.State
  capacity s := (s.map C.capacity).sum
  size s := (s.map C.size).sum
  contains := Batch.contains C
  take := Batch.take C
  takeMultiple := Batch.takeMultiple C
  pop := Batch.pop C
  push := Batch.push C
  flush := Batch.flush C

/-! ## FlushStopper -/

/-- src/flush_stopper/building_block.rs 4-35. -/
def flushStopper (C : Block K V) : Block K V :=
  { C with flush := fun s => .ok ([], s) }

/-! ## Default `take_multiple` -/

/-- src/objsafe/building_block.rs 12-40 (`DynBuildingBlock`) and src/utils/shared_ptr.rs 155-187
(`SharedPtr`, when nobody else holds the pointer): all methods forwarded, except `take_multiple`,
which is the default of the trait. -/
def viaDefault (C : Block K V) : Block K V :=
  { C with takeMultiple := fun s ks => do
      let (out, s) ← defaultTakeMultiple C.take s ks
      return (out, ks, s) }

/-- src/sequential/building_block.rs 8-64 with nobody else using the container (no contention, lock
not poisoned): every method takes and releases the lock and forwards to the container.  For the
behaviour with several threads see Model/Sequential.lean. -/
def sequential (C : Block K V) : Block K V := C

/-! ## Decorator -/

/-- src/decorator/decorator.rs: `DecorationFactory<V>` and `Decoration<V>`.
`wrap` takes `&mut self`, so the factory is a state. -/
structure Decoration (V : Type) : Type 1 where
  Factory : Type
  Item : Type
  wrap : Factory → V → Item × Factory
  unwrap : Item → V

/-- `elements.into_iter().map(|(k, v)| (k, factory.wrap(v))).collect()`,
src/decorator/building_block.rs 85-88. -/
def wrapAll (D : Decoration V) : D.Factory → List (K × V) → List (K × D.Item) × D.Factory
  | f, [] => ([], f)
  | f, (k, v) :: l =>
    let (i, f) := D.wrap f v
    let (l, f) := wrapAll D f l
    ((k, i) :: l, f)

/-- `|(k, r)| (k, r.unwrap())`. -/
def strip (D : Decoration V) (e : K × D.Item) : K × V := (e.1, D.unwrap e.2)

/-- src/decorator/building_block.rs 15-112. -/
def decorator (D : Decoration V) (C : Block K D.Item) : Block K V where
  State := C.State × D.Factory
  capacity s := C.capacity s.1
  size s := C.size s.1
  contains s k := do
    let (b, c) ← C.contains s.1 k
    return (b, (c, s.2))
  take s k := do
    let (o, c) ← C.take s.1 k
    return (o.map (strip D), (c, s.2))
  takeMultiple s ks := do
    let (out, ks, c) ← C.takeMultiple s.1 ks
    return (out.map (strip D), ks, (c, s.2))
  pop s n := do
    let (out, c) ← C.pop s.1 n
    return (out.map (strip D), (c, s.2))
  push s l := do
    let (l, f) := wrapAll D s.2 l
    let (out, c) ← C.push s.1 l
    return (out.map (strip D), (c, f))
  flush s := do
    let (out, c) ← C.flush s.1
    return (out.map (strip D), (c, s.2))

/-! ## Profiler -/

/-- src/profiler/stats.rs 4-11.  Simplification: elapsed time is left out; counters are unbounded
(the code's `AtomicU64` wrap at 2^64). -/
structure MethodStats where
  count : Nat := 0
  size : Nat := 0
deriving DecidableEq, Repr

/-- src/profiler/stats.rs 31-35. -/
def MethodStats.add (m : MethodStats) (count size : Nat) : MethodStats :=
  { count := m.count + count, size := m.size + size }

/-- src/profiler/stats.rs 47-58. -/
structure Stats where
  contains : MethodStats := {}
  take : MethodStats := {}
  pop : MethodStats := {}
  push : MethodStats := {}
  flush : MethodStats := {}
  flushIter : MethodStats := {}
  get : MethodStats := {}
  getMut : MethodStats := {}
  hit : MethodStats := {}
  miss : MethodStats := {}
deriving DecidableEq, Repr

/-- src/profiler/stats.rs 78-89. -/
def Stats.reset (_ : Stats) : Stats := {}

/-- src/profiler/building_block.rs 19-27: absolute difference. -/
def sizeDiff (s0 s1 : Nat) : Nat := if s0 > s1 then s0 - s1 else s1 - s0

/-- src/profiler/building_block.rs 81-87, 104-111: one hit or one miss. -/
def Stats.hitOrMiss (st : Stats) (hit : Bool) : Stats :=
  if hit then { st with hit := st.hit.add 1 0 } else { st with miss := st.miss.add 1 0 }

/-- src/profiler/building_block.rs 48-194, statistics private to this `Profiler`.
The flush iterator is read to its end by the caller, i.e. `next()` is called once more than there are
elements (lines 36-46). -/
def profiler (C : Block K V) : Block K V where
  State := C.State × Stats
  capacity s := C.capacity s.1
  size s := C.size s.1
  -- lines 78-88
  contains s k := do
    let (b, c) ← C.contains s.1 k
    let st := { s.2 with contains := s.2.contains.add 1 0 }
    return (b, (c, st.hitOrMiss b))
  -- lines 100-113
  take s k := do
    let (o, c) ← C.take s.1 k
    let st := { s.2 with take := s.2.take.add 1 (sizeDiff (C.size s.1) (C.size c)) }
    return (o, (c, st.hitOrMiss o.isSome))
  -- lines 127-137
  takeMultiple s ks := do
    let n := ks.length
    let (out, ks, c) ← C.takeMultiple s.1 ks
    let st := { s.2 with take := s.2.take.add n (sizeDiff (C.size s.1) (C.size c)) }
    let hits := out.length
    let misses ← Res.sub n hits
    return (out, ks, (c, { st with hit := st.hit.add hits 0, miss := st.miss.add misses 0 }))
  -- lines 147-157
  pop s n := do
    let (out, c) ← C.pop s.1 n
    let d ← Res.sub (C.size s.1) (C.size c)
    return (out, (c, { s.2 with pop := s.2.pop.add d (sizeDiff (C.size s.1) (C.size c)) }))
  -- lines 167-172
  push s l := do
    let (out, c) ← C.push s.1 l
    return (out, (c, { s.2 with push := s.2.push.add l.length 0 }))
  -- lines 185-193
  flush s := do
    let (out, c) ← C.flush s.1
    let st := { s.2 with flush := s.2.flush.add 1 (sizeDiff (C.size s.1) (C.size c)) }
    return (out, (c, { st with flushIter := st.flushIter.add (out.length + 1) 0 }))

/-! ## Associative -/

namespace Associative

/-- src/associative/associative.rs 88-94: index of the set of a key; `% 0` panics. -/
def set (hash : K → Nat) (n : Nat) (k : K) : Res Nat :=
  if n = 0 then .panic else .ok (hash k % n)

/-- src/associative/building_block.rs 84-86 and 246-248: distribute items over the sets. -/
def distribute {E : Type} (hash : K → Nat) (key : E → K) (n : Nat) :
    List E → List (List E) → Res (List (List E))
  | [], g => .ok g
  | e :: l, g => do
    let i ← set hash n (key e)
    distribute hash key n l (g.modify i (· ++ [e]))

/-- src/associative/building_block.rs 89-95 and 98-100: take from each bucket that has keys, and
gather the keys left. -/
def takeMultipleLoop (C : Block K V) : List C.State → List (List K) →
    Res (List (K × V) × List K × List C.State)
  | c :: cs, g :: gs => do
    if g = [] then
      let (outs, ks, cs) ← takeMultipleLoop C cs gs
      return (outs, ks, c :: cs)
    else
      let (out, ks, c) ← C.takeMultiple c g
      let (outs, kss, cs) ← takeMultipleLoop C cs gs
      return (out ++ outs, ks ++ kss, c :: cs)
  | cs, _ => .ok ([], [], cs)

/-- src/associative/building_block.rs 75-103. -/
def takeMultiple (hash : K → Nat) (C : Block K V) (s : List C.State) (ks : List K) :
    Res (List (K × V) × List K × List C.State) := do
  let g ← distribute hash id s.length ks (List.replicate s.length [])
  takeMultipleLoop C s g

/-- src/associative/building_block.rs 251-253. -/
def pushLoop (C : Block K V) : List C.State → List (List (K × V)) →
    Res (List (K × V) × List C.State)
  | c :: cs, g :: gs => do
    let (out, c) ← C.push c g
    let (outs, cs) ← pushLoop C cs gs
    return (out ++ outs, c :: cs)
  | cs, _ => .ok ([], cs)

/-- src/associative/building_block.rs 238-255. -/
def push (hash : K → Nat) (C : Block K V) (s : List C.State) (l : List (K × V)) :
    Res (List (K × V) × List C.State) := do
  let g ← distribute hash Prod.fst s.length l (List.replicate s.length [])
  pushLoop C s g

/-- src/associative/building_block.rs 173-202: the loop computing the target size.  The pairs in
`buckets` are `(index, size)` (line 129-134) but the loop reads them as `(bucket_size, bucket_index)`;
`buckets` is kept reversed here so that `Vec::pop` removes the head. -/
def targetLoop (size : Nat) : List (Nat × Nat) → Nat → Res (Nat × List (Nat × Nat))
  | [], poppedSize => do
    let _ ← Res.sub poppedSize size
    .panic -- `pop().expect(..)`
  | (bucketSize, bucketIndex) :: rest, poppedSize => do
    let d ← Res.sub poppedSize size
    let target := d / ((rest.length + 1) + 1)
    if bucketSize ≥ target then return (target, (bucketSize, bucketIndex) :: rest)
    else do
      let poppedSize ← Res.sub poppedSize bucketSize
      if poppedSize > size then targetLoop size rest poppedSize
      else .panic -- `assert!`

/-- src/associative/building_block.rs 217-222. -/
def popLoop (C : Block K V) (target : Nat) : List (Nat × Nat) → List C.State →
    Res (List (K × V) × List C.State)
  | [], s => .ok ([], s)
  | (bucketSize, bucketIndex) :: rest, s => do
    let c ← Res.unwrap s[bucketIndex]?
    let popSize ← Res.sub bucketSize target
    let (out, c) ← C.pop c popSize
    let (outs, s) ← popLoop C target rest (s.set bucketIndex c)
    return (out ++ outs, s)

/-- src/associative/building_block.rs 123-225.  The sort of line 170 is by decreasing first component,
i.e. by decreasing index: the reverse of the enumeration. -/
def pop (C : Block K V) (s : List C.State) (size : Nat) : Res (List (K × V) × List C.State) := do
  let sizes := s.map C.size
  let poppedSize := sizes.sum
  if size = 0 ∨ poppedSize = 0 then return ([], s)
  if size ≥ poppedSize then Batch.flush C s
  else
    -- last of the sorted vector first
    let buckets := (List.range s.length).zip sizes
    let (target, buckets) ← targetLoop size buckets poppedSize
    popLoop C target buckets s

end Associative

/-- src/associative/building_block.rs. -/
def associative (hash : K → Nat) (C : Block K V) : Block K V where
  State := List C.State
  capacity s := (s.map C.capacity).sum
  size s := (s.map C.size).sum
  -- lines 40-43
  contains s k := do
    let i ← Associative.set hash s.length k
    let c ← Res.unwrap s[i]?
    let (b, c) ← C.contains c k
    return (b, s.set i c)
  -- lines 63-66
  take s k := do
    let i ← Associative.set hash s.length k
    let c ← Res.unwrap s[i]?
    let (o, c) ← C.take c k
    return (o, s.set i c)
  takeMultiple := Associative.takeMultiple hash C
  pop := Associative.pop C
  push := Associative.push hash C
  flush := Batch.flush C

end Byoc
