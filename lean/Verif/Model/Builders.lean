import Verif.Model.Config
import Verif.Model.Inclusive

/-!
# Model of the builders

src/builder/ and the `builder.rs` of each container: what `build()` makes, and the configuration
`as_config()` describes.  `BatchConfig` has no `IntoConfig`: there is no batch builder.
-/

namespace Byoc

/-- The builders: src/array/builder.rs, src/btree/builder.rs, src/stream/builder.rs,
src/compression/builder.rs (`file`: the name chosen by `as_config` for a `TempFileStreamFactory`),
src/socket/builder.rs 10-48, src/exclusive/builder.rs, src/inclusive/builder.rs,
src/flush_stopper/builder.rs, src/profiler/builder.rs, src/sequential/builder.rs,
src/associative/builder.rs, src/decorator/builder.rs. -/
inductive Bld where
  | array (capacity : Nat)
  | btree (capacity : Nat)
  | stream (capacity : Nat)
  | compressed (file : Option String) (capacity : Nat)
  | client (address : String)
  | exclusive (front back : Bld)
  | inclusive (front back : Bld)
  | flushStopper (c : Bld)
  | profiler (c : Bld)
  | sequential (c : Bld)
  | associative (sets : Nat) (c : Bld)
  | decorator (d : Decor) (c : Bld)

namespace Bld

/-- `DecorationType` written to TOML, adjacently tagged: src/decorator/config.rs 12-19. -/
def decorToml : Decor → Toml
  | .lrfu e => .table [("kind", .str "Lrfu"), ("exponent", .float e)]
  | .lru => .table [("kind", .str "Lru")]
  | .fifo => .table [("kind", .str "Fifo")]
  | .none => .table [("kind", .str "None")]

/-- `as_config()` written to TOML (`to_toml_string`, then parsed): src/array/config.rs 61-68,
src/btree/config.rs 62-71, src/stream/config.rs 46-53, src/compression/config.rs 50-80,
src/socket/config.rs 56-65, src/exclusive/config.rs 51-74, src/inclusive/config.rs 18-41,
src/flush_stopper/config.rs 43-57, src/profiler/config.rs 44-58, src/sequential/config.rs 43-57,
src/associative/config.rs 50-68, src/decorator/config.rs 72-127.
Simplification: capacities are written in full; TOML integers stop at 2^63 - 1, above it the
conversion fails. -/
def toml : Bld → Toml
  | array n => .table [("id", .str "ArrayConfig"), ("capacity", .int n)]
  | btree n => .table [("id", .str "BTreeConfig"), ("capacity", .int n)]
  | stream n => .table [("id", .str "StreamConfig"), ("capacity", .int n)]
  | compressed none n => .table [("id", .str "CompressedConfig"), ("capacity", .int n)]
  | compressed (some f) n =>
    .table [("id", .str "CompressedConfig"), ("filename", .str f), ("capacity", .int n)]
  | client a => .table [("id", .str "SocketClientConfig"), ("address", .str a)]
  | exclusive f b => .table [("id", .str "ExclusiveConfig"), ("front", f.toml), ("back", b.toml)]
  | inclusive f b => .table [("id", .str "InclusiveConfig"), ("front", f.toml), ("back", b.toml)]
  | flushStopper c => .table [("id", .str "FlushStopperConfig"), ("container", c.toml)]
  | profiler c => .table [("id", .str "ProfilerConfig"), ("container", c.toml)]
  | sequential c => .table [("id", .str "SequentialConfig"), ("container", c.toml)]
  | associative n c =>
    .table [("id", .str "AssociativeConfig"), ("container", .arr (List.replicate n c.toml))]
  | decorator d c =>
    .table [("id", .str "DecoratorConfig"), ("decorator", decorToml d), ("container", c.toml)]

/-- A container of some type. -/
def Made (K V : Type) : Type 1 := Σ B : Block K V, B.State

def Made.capacity {K V : Type} (m : Made K V) : Nat := m.1.capacity m.2

/-- `build()`: src/array/builder.rs 44-48, src/btree/builder.rs 43-47, src/stream/builder.rs 52-59,
src/compression/builder.rs 45-53, src/socket/builder.rs 33-42, src/exclusive/builder.rs 65-79,
src/inclusive/builder.rs 65-79, src/flush_stopper/builder.rs 51-58, src/profiler/builder.rs 55-64,
src/sequential/builder.rs 52-59, src/associative/builder.rs 103-115, src/decorator/builder.rs 61-73.
Simplifications: the hash of an `Associative` is the one of the parameters (see C22 for
`ExclusiveHasher`); its sets are built once and copied; the byte streams are in memory. -/
def make {K : Type} [LinearOrder K] (P : (V : Type) → Params K V) (clock : Nat → Nat) :
    Bld → (V : Type) → Res (Made K V)
  | array n, V => .ok ⟨arrayBlock (fun _ => 1) (P V).srt (P V).srtS, Array.new n⟩
  | btree n, V => let _ := (P V).ord; .ok ⟨btreeBlock fun _ => 1, BTree.new n⟩
  | stream n, V => let _ := (P V).ord; .ok ⟨byteStream (P V).codec, ByteStream.new n⟩
  | compressed (some _) n, V =>
    .ok ⟨fileCompressed (P V).lz4 (P V).vecCodec (P V).srt (P V).srtU, FileCompressed.new [] n⟩
  | compressed none n, V =>
    .ok ⟨Byoc.compressed (P V).lz4 (P V).vecCodec (P V).srt (P V).srtU, Compressed.new n⟩
  | client a, V =>
    match (P V).remote a with
    | some r => .ok r
    | none => .panic
  | exclusive f b, V =>
    match make P clock f V, make P clock b V with
    | .ok f, .ok b => .ok ⟨Byoc.exclusive f.1 b.1, (f.2, b.2)⟩
    | _, _ => .panic
  | inclusive f b, V =>
    match make P clock f (InclCell V), make P clock b (InclCell V) with
    | .ok f, .ok b =>
      match inclusiveNew f.1 b.1 f.2 b.2 with
      | .ok s => .ok ⟨Byoc.inclusive f.1 b.1, s⟩
      | .panic => .panic
    | _, _ => .panic
  | flushStopper c, V =>
    match make P clock c V with
    | .ok c => .ok ⟨Byoc.flushStopper c.1, c.2⟩
    | .panic => .panic
  | profiler c, V =>
    match make P clock c V with
    | .ok c => .ok ⟨Byoc.profiler c.1, (c.2, {})⟩
    | .panic => .panic
  | sequential c, V =>
    match make P clock c V with
    | .ok c => .ok ⟨Byoc.sequential c.1, c.2⟩
    | .panic => .panic
  | associative n c, V =>
    match make P clock c V with
    | .ok c => .ok ⟨Byoc.associative (P V).hash c.1, List.replicate n c.2⟩
    | .panic => .panic
  | decorator .fifo c, V =>
    match make P clock c (fifo V).Item with
    | .ok c => .ok ⟨Byoc.decorator (fifo V) c.1, (c.2, (0 : Nat))⟩
    | .panic => .panic
  | decorator .lru c, V =>
    match make P clock c (lru V clock).Item with
    | .ok c => .ok ⟨Byoc.decorator (lru V clock) c.1, (c.2, (0 : Nat))⟩
    | .panic => .panic
  | decorator (.lrfu e) c, V =>
    match make P clock c (LrfuCell V) with
    | .ok c => .ok ⟨Byoc.decorator (Byoc.lrfu V e clock) c.1, (c.2, (0 : Nat))⟩
    | .panic => .panic
  | decorator .none c, V => make P clock c V

end Bld
end Byoc
