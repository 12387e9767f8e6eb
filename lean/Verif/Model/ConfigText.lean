import Verif.Model.Builders
import Verif.Model.Server

/-!
# Model of configurations as text, of `as_config()`, and of `SocketServerConfig`

The configuration types themselves (not through `ConfigBuilder`): src/config/mod.rs 95-175, the
`config.rs` of each container, src/decorator/config.rs, src/inclusive/config.rs, src/socket/config.rs.

A text is modelled by the value it stands for; the integers of a TOML document are those of `i64`, so
that a value with a larger integer (`serialize_u64` writes any `usize`) is written to a text that cannot
be read.  Trusted, as in Model/Config: the rest of the `toml` crate and the derived `Deserialize`.
-/

namespace Byoc

mutual
/-- All integers are in the range of TOML integers. -/
def Toml.small : Toml → Bool
  | .int n => decide (-2 ^ 63 ≤ n) && decide (n < 2 ^ 63)
  | .arr l => smallAll l
  | .table t => smallFields t
  | _ => true
def smallAll : List Toml → Bool
  | [] => true
  | v :: l => v.small && smallAll l
def smallFields : Fields → Bool
  | [] => true
  | (_, v) :: t => v.small && smallFields t
end

namespace Config

/-- The configuration types.  `plain id c`: one of the types of `Cfg`, read with this `id` field (which
its own `from_toml` does not check).  `decorator`: src/decorator/config.rs 65-71.  `inclusive`:
src/inclusive/config.rs 10-16.  `server`: src/socket/config.rs 141-147.  `builder`: `ConfigBuilder`,
src/config/config_builder.rs 136-140. -/
inductive Conf where
  | plain (id : String) (c : Cfg)
  | decorator (id : String) (d : Decor) (container : Toml)
  | inclusive (id : String) (front back : Toml)
  | server (id : String) (address : String) (container : Toml)
  | builder (b : Builder)

/-- The types, by name. -/
def _root_.Byoc.Cfg.kind : Cfg → String
  | .array _ => "ArrayConfig"
  | .associative _ => "AssociativeConfig"
  | .batch _ => "BatchConfig"
  | .btree _ => "BTreeConfig"
  | .compressed _ _ => "CompressedConfig"
  | .exclusive _ _ => "ExclusiveConfig"
  | .flushStopper _ => "FlushStopperConfig"
  | .profiler _ => "ProfilerConfig"
  | .sequential _ => "SequentialConfig"
  | .socketClient _ => "SocketClientConfig"
  | .stream _ => "StreamConfig"

/-- The other fields of the structures of `Cfg`, in order (see the citations there). -/
def _root_.Byoc.Cfg.fields : Cfg → Fields
  | .array n => [("capacity", .int n)]
  | .associative l => [("container", .arr l)]
  | .batch l => [("container", .arr l)]
  | .btree n => [("capacity", .int n)]
  | .compressed f n => (f.map fun s => ("filename", Toml.str s)).toList ++ [("capacity", .int n)]
  | .exclusive f b => [("front", f), ("back", b)]
  | .flushStopper c => [("container", c)]
  | .profiler c => [("container", c)]
  | .sequential c => [("container", c)]
  | .socketClient a => [("address", .str a)]
  | .stream n => [("capacity", .int n)]

/-- `to_toml_string`, src/config/mod.rs 108-110: the derived `Serialize` of each structure. -/
def Conf.write : Conf → Toml
  | .plain id c => .table (("id", .str id) :: c.fields)
  | .decorator id d c => .table [("id", .str id), ("decorator", Bld.decorToml d), ("container", c)]
  | .inclusive id f b => .table [("id", .str id), ("front", f), ("back", b)]
  | .server id a c => .table [("id", .str id), ("address", .str a), ("container", c)]
  | .builder b => .table
    [("config", .table [("has_concurrent_trait", .bool b.config.hasConcurrentTrait),
        ("toml_config", b.config.toml)]),
     ("decorator", Bld.decorToml b.decorator)]

/-- The derived `Deserialize` of `DecorationType`, adjacently tagged: src/decorator/config.rs 12-19. -/
def decorFrom : Toml → Option Decor
  | .table d =>
    match d.lookup "kind", d.lookup "exponent" with
    | some (.str "Lrfu"), some (.float q) => some (.lrfu q)
    | some (.str "Lrfu"), some (.int n) => some (.lrfu n)
    | some (.str "Lru"), none => some .lru
    | some (.str "Fifo"), none => some .fifo
    | some (.str "None"), none => some .none
    | _, _ => none
  | _ => none

/-- The error given when the fields are not those of the structure: `ConfigFormatError` in
src/array/config.rs 45-50, src/btree/config.rs 47-52, src/compression/config.rs 91-96,
src/socket/config.rs 74-81, src/stream/config.rs 62-67, `TomlFormatError` in the others. -/
def fieldErr (kind : String) : CfgErr :=
  if kind ∈ ["ArrayConfig", "BTreeConfig", "CompressedConfig", "SocketClientConfig", "StreamConfig"]
  then .format else .toml

/-- `from_toml` of the type named `kind`, on a table: src/array/config.rs 43-51 etc. (see `parse` and
`fromToml`), src/decorator/config.rs 133-136, src/inclusive/config.rs 45-60, src/socket/config.rs
149-169, src/config/config_builder.rs 154-197.  `DecoratorConfig` does not check its container;
`SocketServerConfig` checks it with `GenericConfig::from_toml`; none but `ConfigBuilder` checks `id`. -/
def read (w : World) (kind : String) (t : Fields) : Except CfgErr Conf :=
  match kind with
  | "ConfigBuilder" => do return .builder (← builderFromToml w (.table t))
  | "DecoratorConfig" => do
    let id ← orErr .toml (string t "id")
    let d ← orErr .toml ((t.lookup "decorator").bind decorFrom)
    return .decorator id d (← orErr .toml (t.lookup "container"))
  | "InclusiveConfig" => do
    let id ← orErr .toml (string t "id")
    let f ← orErr .toml (t.lookup "front")
    let b ← orErr .toml (t.lookup "back")
    let _ ← fromToml w f
    let _ ← fromToml w b
    return .inclusive id f b
  | "SocketServerConfig" => do
    let id ← orErr .toml (string t "id")
    let a ← orErr .toml (string t "address")
    let c ← orErr .toml (t.lookup "container")
    if w.resolves a then
      let _ ← fromToml w c
      return .server id a c
    else .error .format
  | kind => do
    let id ← orErr (fieldErr kind) (string t "id")
    let c ← parse w kind t
    let _ ← c.children.mapM (fromToml w)
    return .plain id c

/-- `from_string`, src/config/mod.rs 118-123, src/socket/config.rs 171-176: the text of a TOML document
is a table of `i64` integers. -/
def fromString (w : World) (kind : String) (v : Toml) : Except CfgErr Conf :=
  match v with
  | .table t => if smallFields t then read w kind t else .error .toml
  | _ => .error .toml

/-! ## `as_config()` -/

/-- `toml::de::from_str(config.to_toml_string()).unwrap()`: src/exclusive/config.rs 62-66 etc. -/
def reparse (c : Conf) : Res Toml := if c.write.small then .ok c.write else .panic

end Config

open Config in
/-- `as_config()`: src/array/config.rs 61-68, src/btree/config.rs 62-71, src/stream/config.rs 46-53,
src/compression/config.rs 50-80, src/socket/config.rs 56-65, src/exclusive/config.rs 51-74,
src/inclusive/config.rs 18-41, src/flush_stopper/config.rs 43-57, src/profiler/config.rs 44-58,
src/sequential/config.rs 43-57, src/associative/config.rs 50-68, src/decorator/config.rs 73-127. -/
def Bld.asConfig : Bld → Res Conf
  | array n => .ok (.plain "ArrayConfig" (.array n))
  | btree n => .ok (.plain "BTreeConfig" (.btree n))
  | stream n => .ok (.plain "StreamConfig" (.stream n))
  | compressed f n => .ok (.plain "CompressedConfig" (.compressed f n))
  | client a => .ok (.plain "SocketClientConfig" (.socketClient a))
  | exclusive f b => do
    let f ← reparse (← f.asConfig)
    let b ← reparse (← b.asConfig)
    return .plain "ExclusiveConfig" (.exclusive f b)
  | inclusive f b => do
    let f ← reparse (← f.asConfig)
    let b ← reparse (← b.asConfig)
    return .inclusive "InclusiveConfig" f b
  | flushStopper c => do
    return .plain "FlushStopperConfig" (.flushStopper (← reparse (← c.asConfig)))
  | profiler c => do
    return .plain "ProfilerConfig" (.profiler (← reparse (← c.asConfig)))
  | sequential c => do
    return .plain "SequentialConfig" (.sequential (← reparse (← c.asConfig)))
  | associative n c => do
    return .plain "AssociativeConfig" (.associative (List.replicate n (← reparse (← c.asConfig))))
  | decorator d c => do
    return .decorator "DecoratorConfig" d (← reparse (← c.asConfig))

open Config in
/-- `SocketServerConfig::from` of the `SocketServerBuilder` that `builder.accept(address)` gives:
src/socket/config.rs 185-206. -/
def Bld.serverConfig (address : String) (b : Bld) : Res Conf := do
  return .server "SocketServerConfig" address (← reparse (← b.asConfig))

namespace Config

variable {K V : Type} [LinearOrder K]

/-- `GenericConfig::from_toml(..).unwrap().build()`. -/
def buildNested (w : World) (P : Params K V) (v : Toml) : Res (Built K V) :=
  match fromToml w v with
  | .error _ => .panic
  | .ok g => build w P g.toml

/-- `build()` of the types of `Cfg` (see `assemble`), which reads the nested configurations again. -/
def buildPlain (w : World) (P : Params K V) (c : Cfg) : Res (Built K V) :=
  match c.children.mapM (fromToml w) with
  | .error _ => .panic
  | .ok gs => do
    let bs ← c.children.mapM (buildNested w P)
    assemble w P c (c.isConcurrent gs) bs

/-- `build()`: src/decorator/config.rs 138-181, src/inclusive/config.rs 62-73, src/config/config_builder.rs
199-227, and `buildPlain`.  A server configuration builds no container (see `serve`). -/
def Conf.build (w : World) (P : (V : Type) → Params K V) (clock : Nat → Nat) (V : Type) :
    Conf → Res (Built K V)
  | .plain _ c => buildPlain w (P V) c
  | .decorator _ .none c => buildNested w (P V) c
  | .decorator _ .fifo c => do
    let x ← buildNested w (P (Byoc.fifo V).Item) c
    return .new (Byoc.decorator (Byoc.fifo V) x.block) (x.state, (0 : Nat)) false
  | .decorator _ .lru c => do
    let x ← buildNested w (P (Byoc.lru V clock).Item) c
    return .new (Byoc.decorator (Byoc.lru V clock) x.block) (x.state, (0 : Nat)) false
  | .decorator _ (.lrfu e) c => do
    let x ← buildNested w (P (LrfuCell V)) c
    return .new (Byoc.decorator (Byoc.lrfu V e clock) x.block) (x.state, (0 : Nat)) false
  | .inclusive _ f b => do
    let f ← buildNested w (P (InclCell V)) f
    let b ← buildNested w (P (InclCell V)) b
    match inclusiveNew f.block b.block f.state b.state with
    | .ok s => .ok (.new (Byoc.inclusive f.block b.block) s false)
    | .panic => .panic
  | .builder b => builderBuild w
    { plain := P V, clock := clock, fifo := P _, lru := P _, lrfu := P _ } b
  | .server _ _ _ => .panic

/-- `build()` of a server configuration, src/socket/config.rs 208-222: the container is built, to be
served at the address. -/
def Conf.serve (w : World) (P : Params K V) : Conf → Res (String × Built K V)
  | .server _ a c => do return (a, ← buildNested w P c)
  | _ => .panic

/-- `ServerThreadBuilder::new(address, container).spawn()`, src/socket/server_thread.rs 108-114: no
reconnection. -/
def served (b : Built K V) : Socket.Server b.block := { cont := b.state, persistent := some 0 }

end Config
end Byoc
