import Verif.Base
import Verif.Model.Std

/-!
# Model of `log2`, `ByteStream::chunk_size`, `ExclusiveHasher` and `KMin`
-/

namespace Byoc

/-! ## log2 and chunk_size -/

/-- src/utils/math.rs 8-11: the loop `while n != 0 { n >>= 1; i += 1; }`, returns `i`. -/
def log2Loop (n i : Nat) : Nat :=
  if n = 0 then i else log2Loop (n / 2) (i + 1)
termination_by n
decreasing_by omega

/-- src/utils/math.rs 1-14: `log2`.  The `u8` counter is a `Nat` (it is at most 64). -/
def log2 (n : Nat) : Nat := if n = 0 then 0 else log2Loop n 0 - 1

/-- src/stream/stream.rs 106-114: `ByteStream::chunk_size`, on `usize` = `u64`; a shift by 64
(`1usize << 64`) panics. -/
def chunkSize (size : Nat) : Res (Nat × Nat) :=
  let i := log2 size
  if 2 ^ i = size then .ok (i, size)
  else if i + 1 < 64 then .ok (i + 1, 2 ^ (i + 1))
  else .panic

/-! ## ExclusiveHasher -/

/-- src/associative/multiset_hasher.rs 23-28 without the inner hasher, which only produces the 64-bit
hash given to `finish` below.  The `u8` fields are `Nat` (all at most 128). -/
structure ExclusiveHasher where
  mask : BitVec 64
  rshift : Nat
  nbits : Nat

namespace ExclusiveHasher

/-- `x >> n` on `u64`: panics if `n` is at least 64. -/
def shr (x : BitVec 64) (n : Nat) : Res (BitVec 64) := if n < 64 then .ok (x >>> n) else .panic

/-- `x << n` on `u64`: panics if `n` is at least 64. -/
def shl (x : BitVec 64) (n : Nat) : Res (BitVec 64) := if n < 64 then .ok (x <<< n) else .panic

/-- lines 31-34: `finish`, where `h` is the hash computed by the inner hasher. -/
def finish (x : ExclusiveHasher) (h : BitVec 64) : Res (BitVec 64) := shr (h &&& x.mask) x.rshift

/-- lines 54-62: `new`. -/
def new (nsets : Nat) : Res ExclusiveHasher := do
  let nbits := log2 nsets + 1
  let shift ← Res.sub 64 nbits
  let mask ← shr (BitVec.allOnes 64) shift
  pure ⟨mask, 0, nbits⟩

/-- lines 70-86: `next`; `Err(())` is `none`. -/
def next (x : ExclusiveHasher) (nsets : Nat) : Res (Option ExclusiveHasher) := do
  let nbits := log2 nsets + 1
  let rshift := x.nbits + x.rshift
  if rshift + nbits > 64 then pure none
  else
    let shift ← Res.sub 64 nbits
    let m ← shr (BitVec.allOnes 64) shift
    let mask ← shl m rshift
    pure (some ⟨mask, rshift, nbits⟩)

/-- src/associative/builder.rs 86-101: `add_layer` called for each number of sets of the list; the
hashers of the layers added, bottom to top.  Too many bits: `expect` panics. -/
def layers : ExclusiveHasher → List Nat → Res (List ExclusiveHasher)
  | _, [] => .ok []
  | x, n :: ns => do
    let o ← next x n
    let y ← Res.unwrap o
    let ys ← layers y ns
    pure (y :: ys)

/-- src/associative/builder.rs 77-101: the hashers of `AssociativeBuilder::new(b, hasher, n)` followed
by `.add_layer(n')` for each `n'` of the list. -/
def chain : List Nat → Res (List ExclusiveHasher)
  | [] => .ok []
  | n :: ns => do
    let x ← new n
    let xs ← layers x ns
    pure (x :: xs)

/-- src/associative/associative.rs 88-94: the set a layer of `n` sets uses for a key of hash `h`;
`% 0` panics. -/
def set (x : ExclusiveHasher) (n : Nat) (h : BitVec 64) : Res Nat := do
  let i ← x.finish h
  if n = 0 then .panic else pure (i.toNat % n)

end ExclusiveHasher

/-! ## KMin -/

/-- src/utils/kmin.rs 5-9.  The `BTreeSet<(T, usize)>` is its sorted list. -/
structure KMin (T : Type) where
  items : List (T × Nat)
  max : Nat
  size : Nat
deriving DecidableEq

namespace KMin

variable {T : Type} [LinearOrder T]

/-- Order of the pairs in the `BTreeSet`: lexicographic. -/
def lt (a b : T × Nat) : Prop := a.1 < b.1 ∨ (a.1 = b.1 ∧ a.2 < b.2)

instance : DecidableRel (lt (T := T)) := fun _ _ => by unfold lt; infer_instance

/-- `BTreeSet::insert` of an element that is absent, on the sorted list. -/
def insert (e : T × Nat) : List (T × Nat) → List (T × Nat)
  | [] => [e]
  | x :: l => if lt e x then e :: x :: l else x :: insert e l

/-- lines 13-19 -/
def new (k : Nat) : KMin T := ⟨[], k, 0⟩

/-- lines 35-51: the loop over the items from the smallest, and the items left.  Returns the items
kept and the new size. -/
def trim (max : Nat) : List (T × Nat) → Nat → Res (List (T × Nat) × Nat)
  | [], size => .ok ([], size)
  | (x, s) :: l, size => do
    let d ← Res.sub size s
    if d < max then .ok ((x, s) :: l, size)
    else trim max l d

/-- lines 26-53: `push`. -/
def push (m : KMin T) (item : T) (itemSize : Nat) : Res (Bool × KMin T) :=
  if (item, itemSize) ∈ m.items then .ok (false, m)
  else do
    let items := insert (item, itemSize) m.items
    let size := m.size + itemSize
    let before ← Res.sub size itemSize
    if before < m.max then .ok (true, { m with items := items, size := size })
    else
      let (items, size) ← trim m.max items size
      .ok (true, { m with items := items, size := size })

/-- A sequence of pushes. -/
def pushAll : KMin T → List (T × Nat) → Res (KMin T)
  | m, [] => .ok m
  | m, (x, s) :: l => do
    let (_, m) ← push m x s
    pushAll m l

end KMin
end Byoc
