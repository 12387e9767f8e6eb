import Verif.Model.Stack
import Verif.Model.Utils

/-! # Associative containers in layers -/

namespace Byoc

variable {K V : Type}

namespace Layers

/-- `Associative<Associative<… Array …>>`: for each layer, outermost first, the number of sets and the
hash used (src/associative/associative.rs 72-94).  Elements count for 1. -/
def stack (srt srtS : Sorter (K × V)) : List (Nat × (K → Nat)) → Stack K V
  | [] => .array (fun _ => 1) srt srtS
  | (_, h) :: ls => .associative h (stack srt srtS ls)

/-- A new container, with Arrays of capacity `c`: src/associative/builder.rs 108-114,
src/associative/config.rs 92-110. -/
def new [LinearOrder K] (srt srtS : Sorter (K × V)) (c : Nat) :
    (ls : List (Nat × (K → Nat))) → (stack srt srtS ls).block.State
  | [] => Array.new (K := K) (V := V) c
  | (n, _) :: ls => List.replicate n (new srt srtS c ls)

/-- Layers of a configuration of nested `AssociativeConfig`: every layer uses `DefaultHasher::new()`
(src/associative/config.rs 106), i.e. the same hash. -/
def ofConfig (hash : K → Nat) (ns : List Nat) : List (Nat × (K → Nat)) := ns.map fun n => (n, hash)

/-- The value a layer's `ExclusiveHasher` gives for a key (src/associative/multiset_hasher.rs 31-34);
that `finish` does not panic on hashers made by the builder is part of C21. -/
def value (x : ExclusiveHasher) (h : BitVec 64) : Nat :=
  match x.finish h with
  | .ok r => r.toNat
  | .panic => 0

/-- Layers of `AssociativeBuilder::new(b, hasher, n)` followed by `.add_layer(n')` for each other number
of the list (src/associative/builder.rs 77-114): the last layer added is the outermost. -/
def ofBuilder (hash : K → BitVec 64) (ns : List Nat) : Res (List (Nat × (K → Nat))) := do
  let xs ← ExclusiveHasher.chain ns
  return ((ns.zip xs).map fun p => (p.1, fun k => value p.2 (hash k))).reverse

end Layers
end Byoc
