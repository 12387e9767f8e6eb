import Verif.Model.Stack
import Verif.Model.BTree
import Verif.Model.Stream
import Verif.Model.FileBacked
import Verif.Model.Policies

/-!
# Model of the configurations

src/config/generic_config.rs, src/config/config_builder.rs, src/config/mod.rs and the `config.rs` of
each container: parsing, validation, construction of the container described, and the flag that says
whether it may be shared between threads (src/objsafe/building_block.rs).

Trusted: the `toml` crate (0.5) and the derived `Deserialize` of the configuration structures.  A
configuration is a parsed `toml::Value`; writing a value to a string and parsing it back
(`toml::to_string` then `toml::from_str`, first lines of each `from_toml`) gives the same value;
unknown fields are ignored; a missing field or a field of another type is an error.
-/

namespace Byoc

/-- `toml::Value`.  A table is the list of its fields, `lookup` finds a field by name. -/
inductive Toml where
  | str (s : String)
  | int (n : Int)
  | float (q : ℚ)
  | bool (b : Bool)
  | datetime (s : String)
  | arr (l : List Toml)
  | table (t : List (String × Toml))

/-- Fields of a table. -/
abbrev Fields := List (String × Toml)

/-- src/config/error.rs 6-22, without the messages. -/
inductive CfgErr where
  | toml
  | format
deriving DecidableEq, Repr

/-- The configuration structures: src/array/config.rs 31-36, src/associative/config.rs 43-48,
src/batch/config.rs 39-44, src/btree/config.rs 33-38, src/compression/config.rs 42-48,
src/exclusive/config.rs 44-50, src/flush_stopper/config.rs 34-39, src/profiler/config.rs 36-41,
src/sequential/config.rs 34-39, src/socket/config.rs 50-55, src/stream/config.rs 39-44. -/
inductive Cfg where
  | array (capacity : Nat)
  | associative (container : List Toml)
  | batch (container : List Toml)
  | btree (capacity : Nat)
  | compressed (filename : Option String) (capacity : Nat)
  | exclusive (front back : Toml)
  | flushStopper (container : Toml)
  | profiler (container : Toml)
  | sequential (container : Toml)
  | socketClient (address : String)
  | stream (capacity : Nat)

/-- The outside world: does a string resolve to a socket address (`to_socket_addrs`), and can a file
be opened (`FileStream::new`, src/stream/file_stream.rs 30-42); what the files contain. -/
structure World where
  resolves : String → Bool
  opens : String → Bool
  contents : String → List UInt8 := fun _ => []

namespace Config

/-- A `usize` field: a non negative integer. -/
def usize (t : Fields) (name : String) : Option Nat :=
  match t.lookup name with
  | some (.int n) => if 0 ≤ n then some n.toNat else none
  | _ => none

/-- An `Option<String>` field: absent, or a string.  `none` is an error. -/
def optString (t : Fields) (name : String) : Option (Option String) :=
  match t.lookup name with
  | none => some none
  | some (.str s) => some (some s)
  | some _ => none

/-- An array field. -/
def array (t : Fields) (name : String) : Option (List Toml) :=
  match t.lookup name with
  | some (.arr l) => some l
  | _ => none

/-- A string field. -/
def string (t : Fields) (name : String) : Option String :=
  match t.lookup name with
  | some (.str s) => some s
  | _ => none

/-- `Option` to `Result`, with the error given by the configuration. -/
def orErr {α : Type} (e : CfgErr) : Option α → Except CfgErr α
  | some a => .ok a
  | none => .error e

/-- src/config/generic_config.rs 86-125: the configuration named by `id`, read from the fields by its
derived `Deserialize` (first statement of each `from_toml`: src/array/config.rs 43-51,
src/associative/config.rs 75-80, src/batch/config.rs 51-56, src/btree/config.rs 45-53,
src/compression/config.rs 89-97, src/exclusive/config.rs 81-86, src/flush_stopper/config.rs 62-67,
src/profiler/config.rs 64-69, src/sequential/config.rs 62-67, src/socket/config.rs 73-91 (with the
check of the address), src/stream/config.rs 60-68).  The nested configurations are checked in
`fromToml`. -/
def parse (w : World) (id : String) (t : Fields) : Except CfgErr Cfg :=
  match id with
  | "ArrayConfig" => do return .array (← orErr .format (usize t "capacity"))
  | "AssociativeConfig" => do return .associative (← orErr .toml (array t "container"))
  | "BatchConfig" => do return .batch (← orErr .toml (array t "container"))
  | "BTreeConfig" => do return .btree (← orErr .format (usize t "capacity"))
  | "CompressedConfig" => do
    let f ← orErr .format (optString t "filename")
    return .compressed f (← orErr .format (usize t "capacity"))
  | "ExclusiveConfig" => do
    let f ← orErr .toml (t.lookup "front")
    return .exclusive f (← orErr .toml (t.lookup "back"))
  | "FlushStopperConfig" => do return .flushStopper (← orErr .toml (t.lookup "container"))
  | "ProfilerConfig" => do return .profiler (← orErr .toml (t.lookup "container"))
  | "SequentialConfig" => do return .sequential (← orErr .toml (t.lookup "container"))
  | "SocketClientConfig" => do
    let a ← orErr .format (string t "address")
    if w.resolves a then return .socketClient a else .error .format
  | "StreamConfig" => do return .stream (← orErr .format (usize t "capacity"))
  | _ => .error .format

/-- The nested configurations. -/
def _root_.Byoc.Cfg.children : Cfg → List Toml
  | .associative l => l
  | .batch l => l
  | .exclusive f b => [f, b]
  | .flushStopper c => [c]
  | .profiler c => [c]
  | .sequential c => [c]
  | _ => []

/-- src/config/generic_config.rs 23-28. -/
structure Generic where
  hasConcurrentTrait : Bool
  toml : Toml

/-- `GenericConfig` does not define `is_concurrent`: the default of the trait,
src/config/mod.rs 160-165. -/
def Generic.isConcurrent (_ : Generic) : Bool := false

/-- `is_concurrent` of a configuration, given the `GenericConfig` of its nested configurations:
src/associative/config.rs 112-117, src/flush_stopper/config.rs 75-79, src/profiler/config.rs 90-94,
src/sequential/config.rs 86-88, otherwise the default, src/config/mod.rs 160-165.
`GenericConfig::from_toml(..).unwrap()` is not modelled to fail: `from_toml` of the same values has
just succeeded. -/
def _root_.Byoc.Cfg.isConcurrent (cfg : Cfg) (gs : List Generic) : Bool :=
  match cfg with
  | .associative _ => gs.all Generic.isConcurrent
  | .flushStopper _ => gs.all Generic.isConcurrent
  | .profiler _ => gs.all Generic.isConcurrent
  | .sequential _ => true
  | _ => false

theorem lookup_size {t : Fields} {n : String} {v : Toml} (h : t.lookup n = some v) :
    sizeOf v < sizeOf (Toml.table t) := by
  have : (n, v) ∈ t := by
    induction t with
    | nil => simp at h
    | cons p t ih =>
      obtain ⟨a, b⟩ := p
      rw [List.lookup_cons] at h
      split at h
      · next hb =>
        cases h
        rw [beq_iff_eq] at hb
        exact hb ▸ List.mem_cons_self
      · exact List.mem_cons_of_mem _ (ih h)
  have h2 := List.sizeOf_lt_of_mem this
  simp only [Prod.mk.sizeOf_spec, Toml.table.sizeOf_spec] at h2 ⊢
  omega

/-- The nested configurations are smaller. -/
theorem parse_children {w : World} {id : String} {t : Fields} {cfg : Cfg}
    (h : parse w id t = .ok cfg) {c : Toml} (hc : c ∈ cfg.children) :
    sizeOf c < sizeOf (Toml.table t) := by
  have harr : ∀ {n l}, array t n = some l → c ∈ l → sizeOf c < sizeOf (Toml.table t) := by
    intro n l ha hm
    unfold array at ha
    split at ha
    · next l' hl =>
      cases ha
      have h1 := lookup_size hl
      have h2 := List.sizeOf_lt_of_mem hm
      simp only [Toml.arr.sizeOf_spec] at h1
      omega
    · cases ha
  have hor : ∀ {α : Type} {e : CfgErr} {o : Option α} {a : α}, orErr e o = .ok a → o = some a := by
    intro α e o a ho
    cases o <;> simp_all [orErr]
  unfold parse at h
  split at h <;> (try simp only [bind, Except.bind, pure, Except.pure] at h) <;>
    (try split at h) <;> (try split at h) <;> (try cases h) <;>
    try simp only [Cfg.children, List.mem_cons, List.not_mem_nil, or_false] at hc
  · next ho => exact harr (hor ho) hc
  · next ho => exact harr (hor ho) hc
  · next h1 _ _ h2 =>
    rcases hc with rfl | rfl
    · exact lookup_size (hor h1)
    · exact lookup_size (hor h2)
  · next h1 => exact hc ▸ lookup_size (hor h1)
  · next h1 => exact hc ▸ lookup_size (hor h1)
  · next h1 => exact hc ▸ lookup_size (hor h1)

/-- src/config/generic_config.rs 39-46, 57-128: `GenericConfig::from_toml`, with the check of the
nested configurations in the `from_toml` of each configuration (src/associative/config.rs 81-87,
src/batch/config.rs 57-63, src/exclusive/config.rs 87-95, src/flush_stopper/config.rs 68-71,
src/profiler/config.rs 70-73, src/sequential/config.rs 68-71): the first error is returned. -/
def fromToml (w : World) (v : Toml) : Except CfgErr Generic :=
  match v with
  | .table t =>
    match t.lookup "id" with
    | none => .error .format
    | some (.str id) =>
      match h : parse w id t with
      | .error e => .error e
      | .ok cfg => do
        let gs ← cfg.children.attach.mapM fun c =>
          have := parse_children h c.2
          fromToml w c.1
        return ⟨cfg.isConcurrent gs, .table t⟩
    | some _ => .error .format
  | _ => .error .format
termination_by sizeOf v
decreasing_by simpa using this

end Config

/-! ## Construction -/

/-- `DynBuildingBlock`: src/objsafe/building_block.rs 42-56.  A container of any type, and the flag. -/
structure Built (K V : Type) : Type 1 where
  block : Block K V
  state : block.State
  hasConcurrentTrait : Bool

/-- `DynBuildingBlock::new`, src/objsafe/building_block.rs 59-76. -/
def Built.new {K V : Type} (B : Block K V) (s : B.State) (c : Bool) : Built K V :=
  ⟨viaDefault B, s, c⟩

/-- `capacity()`, src/objsafe/building_block.rs 92-94. -/
def Built.capacity {K V : Type} (b : Built K V) : Nat := b.block.capacity b.state

/-- `into_concurrent()` is `Ok`: src/objsafe/building_block.rs 82-88. -/
def Built.intoConcurrent {K V : Type} (b : Built K V) : Bool := b.hasConcurrentTrait

/-- Several `DynBuildingBlock` as a list of values of one type. -/
def Built.all {K V : Type} (l : List (Built K V)) : Block K V :=
  anyOf fun i : Fin l.length => (l.get i).block

/-- The states of several `DynBuildingBlock`. -/
def Built.states {K V : Type} (l : List (Built K V)) : List (Built.all l).State :=
  List.ofFn fun i : Fin l.length => ⟨i, (l.get i).state⟩

/-- What the containers need to know about the key and value types: order, sorting routines,
serialization, hash; and the containers that answer at an address. -/
structure Params (K V : Type) : Type 1 where
  srt : Sorter (K × V)
  srtS : Sorter (K × V)
  srtU : Sorter (K × V)
  ord : LinearOrder V
  codec : Codec (K × V)
  vecCodec : VecCodec (K × V)
  lz4 : Lz4
  hash : K → Nat
  remote : String → Option (Σ B : Block K V, B.State)

namespace Config

variable {K V : Type} [LinearOrder K]

/-- `build` of the configuration structures, given the nested containers already built and the value
of `is_concurrent()`: src/array/config.rs 53-57, src/associative/config.rs 92-110,
src/batch/config.rs 67-76, src/btree/config.rs 55-59, src/compression/config.rs 99-125,
src/exclusive/config.rs 98-108, src/flush_stopper/config.rs 81-90, src/profiler/config.rs 76-88,
src/sequential/config.rs 74-84, src/socket/config.rs 93-100, src/stream/config.rs 70-87.
`Stream` is on temporary files, `Compressed` on the file named, or on a temporary one (the feature
`stream` implies `tempfile`, Cargo.toml). -/
def assemble (w : World) (P : Params K V) (cfg : Cfg) (conc : Bool) (bs : List (Built K V)) :
    Res (Built K V) :=
  match cfg, bs with
  | .array n, _ => .ok (.new (arrayBlock (fun _ => 1) P.srt P.srtS) (Array.new n) false)
  | .associative _, bs => .ok (.new (associative P.hash (Built.all bs)) (Built.states bs) conc)
  | .batch _, bs => .ok (.new (batch (Built.all bs)) (Built.states bs) false)
  | .btree n, _ => let _ := P.ord; .ok (.new (btreeBlock fun _ => 1) (BTree.new n) false)
  | .compressed f n, _ =>
    if f.all w.opens then
      .ok (.new (fileCompressed P.lz4 P.vecCodec P.srt P.srtU)
        (FileCompressed.new ((f.map w.contents).getD []) n) false)
    else .panic
  | .exclusive _ _, [f, b] => .ok (.new (exclusive f.block b.block) (f.state, b.state) false)
  | .flushStopper _, [c] => .ok (.new (flushStopper c.block) c.state conc)
  | .profiler _, [c] => .ok (.new (profiler c.block) (c.state, {}) conc)
  | .sequential _, [c] => .ok (.new (sequential c.block) c.state true)
  | .socketClient a, _ =>
    match P.remote a with
    | some r => .ok (.new r.1 r.2 false)
    | none => .panic
  | .stream n, _ => let _ := P.ord; .ok (.new (fileByteStream P.codec) (FileByteStream.new n) false)
  | _, _ => .panic

/-- src/config/generic_config.rs 133-222: `GenericConfig::build`, which reads the configuration again,
and the nested `GenericConfig::from_toml(..).unwrap().build()`: an error in a nested configuration
is a panic. -/
def build (w : World) (P : Params K V) (v : Toml) : Res (Built K V) :=
  match v with
  | .table t =>
    match t.lookup "id" with
    | some (.str id) =>
      match h : parse w id t with
      | .error _ => .panic
      | .ok cfg =>
        match cfg.children.mapM (fromToml w) with
        | .error _ => .panic
        | .ok gs => do
          let bs ← cfg.children.attach.mapM fun c =>
            have := parse_children h c.2
            build w P c.1
          assemble w P cfg (cfg.isConcurrent gs) bs
    | _ => .panic
  | _ => .panic
termination_by sizeOf v
decreasing_by simpa using this

end Config

/-! ## `ConfigBuilder` -/

/-- src/decorator/config.rs 12-19. -/
inductive Decor where
  | lrfu (exponent : ℚ)
  | lru
  | fifo
  | none
deriving DecidableEq

namespace Config

/-- src/config/config_builder.rs 137-140. -/
structure Builder where
  config : Generic
  decorator : Decor

/-- src/config/config_builder.rs 164-188: the `decorator` field.  The exponent is looked up as the field
named `decorator.Lrfu.exponent`, dots included, of the top table. -/
def decoratorOf (t : Fields) : Except CfgErr Decor :=
  match t.lookup "decorator" with
  | none => .ok .none
  | some (.table d) =>
    match d.lookup "kind" with
    | none => .ok .none
    | some (.str "Fifo") => .ok .fifo
    | some (.str "Lru") => .ok .lru
    | some (.str "Lrfu") =>
      match t.lookup "decorator.Lrfu.exponent" with
      | none => .ok (.lrfu 1)
      | some (.float q) => .ok (.lrfu q)
      | some _ => .error .format
    | some _ => .error .format
  | some _ => .error .format

/-- src/config/config_builder.rs 154-197: `ConfigBuilder::from_toml`. -/
def builderFromToml (w : World) (v : Toml) : Except CfgErr Builder :=
  match v with
  | .table t => do
    let d ← decoratorOf t
    let c ← fromToml w v
    return ⟨c, d⟩
  | _ => .error .format

/-- The order, sorting routines, serialization of each of the decorated types, and the clock. -/
structure DParams (K V : Type) : Type 1 where
  plain : Params K V
  clock : Nat → Nat
  fifo : Params K (fifo V).Item
  lru : Params K (lru V clock).Item
  lrfu : Params K (LrfuCell V)

variable {K V : Type} [LinearOrder K]

/-- src/config/config_builder.rs 199-227: `ConfigBuilder::build`. -/
def builderBuild (w : World) (P : DParams K V) (b : Builder) : Res (Built K V) :=
  match b.decorator with
  | .none => build w P.plain b.config.toml
  | .fifo => do
    let c ← build w P.fifo b.config.toml
    return .new (decorator (Byoc.fifo V) c.block) (c.state, (0 : Nat)) b.config.hasConcurrentTrait
  | .lru => do
    let c ← build w P.lru b.config.toml
    return .new (decorator (Byoc.lru V P.clock) c.block) (c.state, (0 : Nat)) b.config.hasConcurrentTrait
  | .lrfu e => do
    let c ← build w P.lrfu b.config.toml
    return .new (decorator (Byoc.lrfu V e P.clock) c.block) (c.state, (0 : Nat)) b.config.hasConcurrentTrait

end Config
end Byoc
