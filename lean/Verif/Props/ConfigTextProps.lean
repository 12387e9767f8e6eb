import Verif.Model.ConfigText
import Verif.Props.BuilderProps
import Verif.Props.SocketProps

/-! # C88 – C90: configurations as text, `as_config()`, configured servers -/

namespace Byoc.ConfigTextProps

open Config ConfigProps BuilderProps List

variable {K V : Type} [LinearOrder K]

/-! ## Lemmas -/

theorem lookup_small {t : Fields} {n : String} {v : Toml} (h : t.lookup n = some v)
    (hs : smallFields t = true) : v.small = true := by
  induction t with
  | nil => simp at h
  | cons p t ih =>
    obtain ⟨a, b⟩ := p
    simp only [smallFields, Bool.and_eq_true] at hs
    rw [List.lookup_cons] at h
    split at h
    · cases h; exact hs.1
    · exact ih h hs.2

theorem string_some {t : Fields} {n s : String} (h : Config.string t n = some s) :
    t.lookup n = some (.str s) := by
  unfold Config.string at h
  split at h
  · next hl => cases h; exact hl
  · cases h

theorem parse_kind {w : World} {t : Fields} {kind : String} {c : Cfg} (h : parse w kind t = .ok c) :
    c.kind = kind := by
  cases parse_iff.1 h <;> rfl

/-- The fields written are read back. -/
theorem parse_fields {w : World} {t : Fields} {kind : String} {c : Cfg} (h : parse w kind t = .ok c)
    (id : String) : parse w kind (("id", .str id) :: c.fields) = .ok c := by
  rw [parse_iff]
  cases parse_iff.1 h with
  | array h => exact .array rfl
  | btree h => exact .btree rfl
  | stream h => exact .stream rfl
  | @compressed n f h h2 =>
    cases f
    · exact .compressed rfl rfl
    · exact .compressed rfl rfl
  | associative h => exact .associative rfl
  | batch h => exact .batch rfl
  | exclusive h h2 => exact .exclusive rfl rfl
  | flushStopper h => exact .flushStopper rfl
  | profiler h => exact .profiler rfl
  | sequential h => exact .sequential rfl
  | socketClient h h2 => exact .socketClient rfl h2

theorem parse_small {w : World} {t : Fields} {kind : String} {c : Cfg} (h : parse w kind t = .ok c)
    (hs : smallFields t = true) (id : String) : smallFields (("id", .str id) :: c.fields) = true := by
  cases parse_iff.1 h with
  | array h' => simpa [Cfg.fields, smallFields, Toml.small] using lookup_small h' hs
  | btree h' => simpa [Cfg.fields, smallFields, Toml.small] using lookup_small h' hs
  | stream h' => simpa [Cfg.fields, smallFields, Toml.small] using lookup_small h' hs
  | @compressed n f h' h2 =>
    have := lookup_small h' hs
    cases f <;> simpa [Cfg.fields, smallFields, Toml.small] using this
  | associative h' => simpa [Cfg.fields, smallFields, Toml.small] using lookup_small h' hs
  | batch h' => simpa [Cfg.fields, smallFields, Toml.small] using lookup_small h' hs
  | exclusive h' h2 =>
    simpa [Cfg.fields, smallFields, Toml.small] using ⟨lookup_small h' hs, lookup_small h2 hs⟩
  | flushStopper h' => simpa [Cfg.fields, smallFields, Toml.small] using lookup_small h' hs
  | profiler h' => simpa [Cfg.fields, smallFields, Toml.small] using lookup_small h' hs
  | sequential h' => simpa [Cfg.fields, smallFields, Toml.small] using lookup_small h' hs
  | socketClient h' h2 => simp [Cfg.fields, smallFields, Toml.small]

theorem decorFrom_toml (d : Decor) : decorFrom (Bld.decorToml d) = some d := by
  cases d <;> rfl

theorem decorToml_small (d : Decor) : (Bld.decorToml d).small = true := by
  cases d <;> rfl

/-- What the four particular types read. -/
theorem read_decorator {w : World} {t : Fields} {c : Conf} : read w "DecoratorConfig" t = .ok c ↔
    ∃ id d x v, t.lookup "id" = some (.str id) ∧ t.lookup "decorator" = some x ∧ decorFrom x = some d ∧
      t.lookup "container" = some v ∧ c = .decorator id d v := by
  unfold Config.read
  simp only [bind, Except.bind, pure, Except.pure]
  constructor
  · intro h
    split at h
    · cases h
    · next h1 =>
      split at h
      · cases h
      · next h2 =>
        split at h
        · cases h
        · next h3 =>
          cases h
          have h2 := orErr_ok.1 h2
          obtain ⟨x, hx, hd⟩ := Option.bind_eq_some_iff.1 h2
          exact ⟨_, _, x, _, string_some (orErr_ok.1 h1), hx, hd, orErr_ok.1 h3, rfl⟩
  · rintro ⟨id, d, x, v, h1, h2, h3, h4, rfl⟩
    simp [Config.string, h1, h2, h3, h4, orErr]

theorem read_inclusive {w : World} {t : Fields} {c : Conf} : read w "InclusiveConfig" t = .ok c ↔
    ∃ id f b, t.lookup "id" = some (.str id) ∧ t.lookup "front" = some f ∧ t.lookup "back" = some b ∧
      (∃ g, fromToml w f = .ok g) ∧ (∃ g, fromToml w b = .ok g) ∧ c = .inclusive id f b := by
  unfold Config.read
  simp only [bind, Except.bind, pure, Except.pure]
  constructor
  · intro h
    split at h
    · cases h
    · next h1 =>
      split at h
      · cases h
      · next h2 =>
        split at h
        · cases h
        · next h3 =>
          split at h
          · cases h
          · next h4 =>
            split at h
            · cases h
            · next h5 =>
              cases h
              exact ⟨_, _, _, string_some (orErr_ok.1 h1), orErr_ok.1 h2, orErr_ok.1 h3, ⟨_, h4⟩, ⟨_, h5⟩, rfl⟩
  · rintro ⟨id, f, b, h1, h2, h3, ⟨g, h4⟩, ⟨g', h5⟩, rfl⟩
    simp [Config.string, h1, h2, h3, h4, h5, orErr]

theorem read_server {w : World} {t : Fields} {c : Conf} : read w "SocketServerConfig" t = .ok c ↔
    ∃ id a v, t.lookup "id" = some (.str id) ∧ t.lookup "address" = some (.str a) ∧
      t.lookup "container" = some v ∧ w.resolves a = true ∧ (∃ g, fromToml w v = .ok g) ∧
      c = .server id a v := by
  unfold Config.read
  simp only [bind, Except.bind, pure, Except.pure]
  constructor
  · intro h
    split at h
    · cases h
    · next h1 =>
      split at h
      · cases h
      · next h2 =>
        split at h
        · cases h
        · next h3 =>
          split at h
          · next h5 =>
            split at h
            · cases h
            · next h4 =>
              cases h
              exact ⟨_, _, _, string_some (orErr_ok.1 h1), string_some (orErr_ok.1 h2), orErr_ok.1 h3, h5,
                ⟨_, h4⟩, rfl⟩
          · cases h
  · rintro ⟨id, a, v, h1, h2, h3, h4, ⟨g, h5⟩, rfl⟩
    simp [Config.string, h1, h2, h3, h4, h5, orErr]

theorem read_builder {w : World} {t : Fields} {c : Conf} : read w "ConfigBuilder" t = .ok c ↔
    ∃ b, builderFromToml w (.table t) = .ok b ∧ c = .builder b := by
  unfold Config.read
  simp only [bind, Except.bind, pure, Except.pure]
  constructor
  · intro h
    split at h
    · cases h
    · next h1 => cases h; exact ⟨_, h1, rfl⟩
  · rintro ⟨b, h1, rfl⟩
    rw [h1]

/-- The types of `Cfg`. -/
def others : List String := ["ConfigBuilder", "DecoratorConfig", "InclusiveConfig", "SocketServerConfig"]

theorem read_plain {w : World} {t : Fields} {kind : String} {c : Conf} (hk : kind ∉ others) :
    read w kind t = .ok c ↔ ∃ id cfg gs, t.lookup "id" = some (.str id) ∧ parse w kind t = .ok cfg ∧
      Forall₂ (fun c g => fromToml w c = .ok g) cfg.children gs ∧ c = .plain id cfg := by
  simp only [others, List.mem_cons, List.not_mem_nil, or_false, not_or] at hk
  obtain ⟨k1, k2, k3, k4⟩ := hk
  unfold Config.read
  split
  · exact (k1 rfl).elim
  · exact (k2 rfl).elim
  · exact (k3 rfl).elim
  · exact (k4 rfl).elim
  simp only [bind, Except.bind, pure, Except.pure]
  constructor
  · intro h
    split at h
    · cases h
    · next h1 =>
      split at h
      · cases h
      · next h2 =>
        split at h
        · cases h
        · next h3 =>
          cases h
          exact ⟨_, _, _, string_some (orErr_ok.1 h1), h2, (mapM_except _ _ _).1 h3, rfl⟩
  · rintro ⟨id, cfg, gs, h1, h2, h3, rfl⟩
    simp [Config.string, h1, h2, (mapM_except _ _ _).2 h3, orErr]

theorem fromString_ok {w : World} {kind : String} {v : Toml} {c : Conf} :
    fromString w kind v = .ok c ↔ ∃ t, v = .table t ∧ smallFields t = true ∧ read w kind t = .ok c := by
  unfold fromString
  constructor
  · intro h
    split at h
    · split at h
      · next hs => exact ⟨_, rfl, hs, h⟩
      · cases h
    · cases h
  · rintro ⟨t, rfl, hs, h⟩
    simp [hs, h]

/-! ## C88 -/

/-- **C88, full statement.** Whatever configuration of whatever type is read, what `to_toml_string`
writes is read back as the same configuration.  False of the code, see `C88_false`. -/
def C88_full : Prop := ∀ (w : World) (kind : String) (v : Toml) (c : Conf),
  fromString w kind v = .ok c → fromString w kind c.write = .ok c

/-- **C88, proved part**: for all types but `ConfigBuilder`. -/
theorem C88_partial (w : World) (kind : String) (v : Toml) (c : Conf) (hk : kind ≠ "ConfigBuilder")
    (h : fromString w kind v = .ok c) : fromString w kind c.write = .ok c := by
  obtain ⟨t, rfl, hs, h⟩ := fromString_ok.1 h
  by_cases ho : kind ∈ others
  · simp only [others, List.mem_cons, List.not_mem_nil, or_false] at ho
    rcases ho with rfl | rfl | rfl | rfl
    · exact (hk rfl).elim
    · obtain ⟨id, d, x, v, h1, h2, h3, h4, rfl⟩ := read_decorator.1 h
      refine fromString_ok.2 ⟨_, rfl, ?_, read_decorator.2 ⟨id, d, _, v, rfl, rfl, decorFrom_toml d, rfl, rfl⟩⟩
      simp [smallFields, Toml.small, decorToml_small, lookup_small h4 hs]
    · obtain ⟨id, f, b, h1, h2, h3, h4, h5, rfl⟩ := read_inclusive.1 h
      refine fromString_ok.2 ⟨_, rfl, ?_, read_inclusive.2 ⟨id, f, b, rfl, rfl, rfl, h4, h5, rfl⟩⟩
      simp [smallFields, Toml.small, lookup_small h2 hs, lookup_small h3 hs]
    · obtain ⟨id, a, v, h1, h2, h3, h4, h5, rfl⟩ := read_server.1 h
      refine fromString_ok.2 ⟨_, rfl, ?_, read_server.2 ⟨id, a, v, rfl, rfl, rfl, h4, h5, rfl⟩⟩
      simp [smallFields, Toml.small, lookup_small h3 hs]
  · obtain ⟨id, cfg, gs, h1, h2, h3, rfl⟩ := (read_plain ho).1 h
    exact fromString_ok.2 ⟨_, rfl, parse_small h2 hs id,
      (read_plain ho).2 ⟨id, cfg, gs, rfl, parse_fields h2 id, h3, rfl⟩⟩

/-- **C88, the other side**: what a `ConfigBuilder` writes can never be read back, whatever it is. -/
theorem C88_builder (w : World) (b : Builder) (c : Conf) :
    fromString w "ConfigBuilder" (Conf.builder b).write ≠ .ok c := by
  intro h
  obtain ⟨t, ht, hs, h⟩ := fromString_ok.1 h
  obtain ⟨b', hb, -⟩ := read_builder.1 h
  have ht : t = [("config", .table [("has_concurrent_trait", .bool b.config.hasConcurrentTrait),
        ("toml_config", b.config.toml)]), ("decorator", Bld.decorToml b.decorator)] := by
    simp only [Conf.write] at ht; cases ht; rfl
  unfold builderFromToml at hb
  simp only [bind, Except.bind, pure, Except.pure] at hb
  split at hb
  · cases hb
  · split at hb
    · cases hb
    · next hg =>
      obtain ⟨t', id, cfg, gs, e, hid, -⟩ := fromToml_iff.1 hg
      cases e
      subst ht
      simp [List.lookup] at hid

/-- **C88 is false of the code.** -/
theorem C88_false : ¬ C88_full := by
  intro h
  obtain ⟨g, hg⟩ := (C45_accepts_iff anyWorld (arrayToml 3)).2 (arrayToml_valid _ _)
  have h1 : fromString anyWorld "ConfigBuilder" (arrayToml 3) = .ok (.builder ⟨g, .none⟩) := by
    refine fromString_ok.2 ⟨_, rfl, by decide, read_builder.2 ⟨_, ?_, rfl⟩⟩
    show builderFromToml anyWorld (arrayToml 3) = _
    simp only [builderFromToml, arrayToml, bind, Except.bind, pure, Except.pure]
    rw [show decoratorOf _ = .ok .none from rfl]
    unfold arrayToml at hg
    simp only [hg]
  exact C88_builder _ _ _ (h _ _ _ _ h1)

theorem buildNested_eq {w : World} {P : Params K V} {v : Toml} {g : Generic} (h : fromToml w v = .ok g) :
    buildNested w P v = build w P v := by
  unfold buildNested
  rw [h]
  simp only [fromToml_toml h]

theorem buildNested_ok {w : World} {P : Params K V} {v : Toml} {b : Built K V} :
    buildNested w P v = .ok b ↔ (∃ g, fromToml w v = .ok g) ∧ build w P v = .ok b := by
  unfold buildNested
  constructor
  · intro h
    split at h
    · cases h
    · next g hg => exact ⟨⟨g, hg⟩, fromToml_toml hg ▸ h⟩
  · rintro ⟨⟨g, hg⟩, h⟩
    rw [hg]
    simpa only [fromToml_toml hg] using h

/-- `build` of a type is that of the table it stands for. -/
theorem buildPlain_eq {w : World} {P : Params K V} {t : Fields} {kind : String} {cfg : Cfg}
    (hid : t.lookup "id" = some (.str kind)) (hp : parse w kind t = .ok cfg) :
    buildPlain w P cfg = build w P (.table t) := by
  have key : ∀ b, buildPlain w P cfg = .ok b ↔ build w P (.table t) = .ok b := by
    intro b
    rw [build_iff]
    unfold buildPlain
    constructor
    · intro h
      split at h
      · cases h
      · next gs hgs =>
        have hgs := (mapM_except _ _ _).1 hgs
        cases hbs : cfg.children.mapM (buildNested w P) with
        | panic => rw [hbs] at h; cases h
        | ok bs =>
          rw [hbs] at h
          refine ⟨t, kind, cfg, gs, bs, rfl, hid, hp, hgs, ?_, h⟩
          refine ((mapM_res _ _ _).1 hbs).imp ?_
          intro x y hx
          exact (buildNested_ok.1 hx).2
    · rintro ⟨t', id', cfg', gs, bs, e, hid', hp', hgs, hbs, ha⟩
      cases e
      rw [hid] at hid'; cases hid'
      rw [hp] at hp'; cases hp'
      rw [(mapM_except _ _ _).2 hgs]
      have : cfg.children.mapM (buildNested w P) = .ok bs := by
        rw [mapM_res]
        clear ha hp hid
        generalize cfg.children = l at hgs hbs
        induction hbs generalizing gs with
        | nil => exact .nil
        | cons h1 _ ih =>
          cases hgs with
          | cons h2 h3 => exact .cons (buildNested_ok.2 ⟨⟨_, h2⟩, h1⟩) (ih _ h3)
      simp only [this]
      exact ha
  cases h1 : buildPlain w P cfg with
  | ok b => exact ((key b).1 h1).symm
  | panic =>
    cases h2 : build w P (.table t) with
    | ok b => rw [(key b).2 h2] at h1; cases h1
    | panic => rfl

/-- **C88, through `ConfigBuilder`**: a configuration with the documented `id`, written, is read by
`ConfigBuilder`, which builds the same container. -/
theorem C88_same_partial (w : World) (P : (V : Type) → Params K V) (clock : Nat → Nat) (kind : String)
    (v : Toml) (cfg : Cfg) (hk : kind ∉ others) (h : fromString w kind v = .ok (.plain kind cfg)) :
    ∃ b, fromString w "ConfigBuilder" (Conf.plain kind cfg).write = .ok (.builder b) ∧
      (Conf.builder b).build w P clock V = (Conf.plain kind cfg).build w P clock V := by
  obtain ⟨t, rfl, hs, h⟩ := fromString_ok.1 h
  obtain ⟨id, cfg', gs, h1, h2, h3, e⟩ := (read_plain hk).1 h
  cases e
  have hp := parse_fields h2 kind
  have hg : fromToml w (.table (("id", .str kind) :: cfg.fields)) =
      .ok ⟨cfg.isConcurrent gs, .table (("id", .str kind) :: cfg.fields)⟩ :=
    fromToml_iff.2 ⟨_, kind, cfg, gs, rfl, rfl, hp, h3, rfl⟩
  have hd : decoratorOf (("id", .str kind) :: cfg.fields) = .ok .none := by
    cases parse_iff.1 h2 with
    | @compressed n f _ _ => cases f <;> rfl
    | _ => rfl
  refine ⟨⟨⟨cfg.isConcurrent gs, .table (("id", .str kind) :: cfg.fields)⟩, .none⟩, fromString_ok.2 ⟨_, rfl, parse_small h2 hs kind, read_builder.2 ⟨_, ?_, rfl⟩⟩, ?_⟩
  · simp only [builderFromToml, bind, Except.bind, pure, Except.pure, hd, hg]
  · show build w (P V) (.table (("id", .str kind) :: cfg.fields)) = buildPlain w (P V) cfg
    exact (buildPlain_eq rfl hp).symm

/-- The types do not check their `id`: `ArrayConfig` reads (and writes back) a configuration which
`ConfigBuilder` takes for a `BTree`. -/
theorem C88_id_unchecked :
    fromString anyWorld "ArrayConfig" (btreeToml 3) = .ok (.plain "BTreeConfig" (.array 3)) ∧
    (Conf.plain "BTreeConfig" (.array 3)).write = btreeToml 3 :=
  ⟨rfl, rfl⟩

/-- A nested configuration meets the hypotheses: it is read, and read back. -/
example : ∃ c, fromString anyWorld "SequentialConfig" (wrapToml "SequentialConfig" (arrayToml 3)) = .ok c ∧
    fromString anyWorld "SequentialConfig" c.write = .ok c := by
  obtain ⟨g, hg⟩ := (C45_accepts_iff anyWorld (arrayToml 3)).2 (arrayToml_valid _ _)
  have h : fromString anyWorld "SequentialConfig" (wrapToml "SequentialConfig" (arrayToml 3)) =
      .ok (.plain "SequentialConfig" (.sequential (arrayToml 3))) :=
    fromString_ok.2 ⟨_, rfl, by decide, (read_plain (by decide)).2
      ⟨_, .sequential (arrayToml 3), [g], rfl, rfl, .cons hg .nil, rfl⟩⟩
  exact ⟨_, h, C88_partial _ _ _ _ (by decide) h⟩

/-! ## C89 -/

/-- Builders that hold no other builder. -/
def Leaf : Bld → Prop
  | .array _ => True
  | .btree _ => True
  | .stream _ => True
  | .compressed _ _ => True
  | .client _ => True
  | _ => False

/-- Some capacity is too large for a TOML integer. -/
def Large : Bld → Prop
  | .array n => 2 ^ 63 ≤ n
  | .btree n => 2 ^ 63 ≤ n
  | .stream n => 2 ^ 63 ≤ n
  | .compressed _ n => 2 ^ 63 ≤ n
  | .client _ => False
  | .exclusive f b => Large f ∨ Large b
  | .inclusive f b => Large f ∨ Large b
  | .flushStopper c => Large c
  | .profiler c => Large c
  | .sequential c => Large c
  | .associative _ c => Large c
  | .decorator _ c => Large c

/-- `Decorator` and `Inclusive` only at the top. -/
def TopOnly : Bld → Prop
  | .decorator _ c => Plain c
  | .inclusive f b => Plain f ∧ Plain b
  | b => Plain b

/-- **C89, full statement.** `as_config()` returns a configuration and, if the builder can build, the
configuration builds too, a container of the same capacity (every `Associative` having sets, addresses
resolving, files opening).  False of the code, see `C89_false`. -/
def C89_full : Prop := ∀ (K V : Type) (_ : LinearOrder K) (w : World) (P : (V : Type) → Params K V)
  (clock : Nat → Nat) (b : Bld), Populated b → Resolves w b → (∀ f, w.opens f = true) →
  ∃ c, b.asConfig = .ok c ∧ ∀ m, b.make P clock V = .ok m →
    ∃ x, c.build w P clock V = .ok x ∧ x.capacity = m.capacity

theorem smallAll_replicate (n : Nat) {v : Toml} (h : v.small = true) :
    smallAll (List.replicate n v) = true := by
  induction n with
  | zero => rfl
  | succ n ih => simp [List.replicate_succ, smallAll, h, ih]

theorem int_small (n : Nat) : (Toml.int n).small = true ↔ ¬ 2 ^ 63 ≤ n := by
  simp only [Toml.small, Bool.and_eq_true, decide_eq_true_eq]
  omega

theorem asConfig_spec (b : Bld) :
    (¬ Large b → ∃ c, b.asConfig = .ok c ∧ c.write = b.toml ∧ b.toml.small = true) ∧
    (Large b → Leaf b → ∃ c, b.asConfig = .ok c ∧ c.write = b.toml ∧ b.toml.small = false) ∧
    (Large b → ¬ Leaf b → b.asConfig = .panic) := by
  have hleaf : ∀ (n : Nat), (Toml.int n).small = false ↔ 2 ^ 63 ≤ n := by
    intro n
    have := int_small n
    rw [← Bool.not_eq_true, this]
    omega
  have hstep : ∀ {b : Bld}, ((¬ Large b → ∃ c, b.asConfig = .ok c ∧ c.write = b.toml ∧ b.toml.small = true) ∧
      (Large b → Leaf b → ∃ c, b.asConfig = .ok c ∧ c.write = b.toml ∧ b.toml.small = false) ∧
      (Large b → ¬ Leaf b → b.asConfig = .panic)) →
      (¬ Large b → b.toml.small = true ∧ (b.asConfig >>= fun c => reparse c) = .ok b.toml) ∧
      (Large b → (b.asConfig >>= fun c => reparse c) = .panic) := by
    rintro b ⟨h1, h2, h3⟩
    constructor
    · intro h
      obtain ⟨c, e1, e2, e3⟩ := h1 h
      refine ⟨e3, ?_⟩
      rw [e1]
      show reparse c = _
      rw [reparse, e2, e3]
      rfl
    · intro h
      by_cases hl : Leaf b
      · obtain ⟨c, e1, e2, e3⟩ := h2 h hl
        rw [e1]
        show reparse c = _
        rw [reparse, e2, e3]
        rfl
      · rw [h3 h hl]; rfl
  have bind2 : ∀ (x : Res Conf) {α : Type} (k : Toml → Res α),
      (x >>= fun c => reparse c >>= k) = ((x >>= fun c => reparse c) >>= k) := by
    intro x α k; cases x <;> rfl
  have hwrap : ∀ {b : Bld}, ∀ (k : Toml → Conf),
      ((¬ Large b → b.toml.small = true ∧ (b.asConfig >>= fun c => reparse c) = .ok b.toml) ∧
      (Large b → (b.asConfig >>= fun c => reparse c) = .panic)) →
      (¬ Large b → (b.asConfig >>= fun c => reparse c >>= fun t => (pure (k t) : Res Conf)) = .ok (k b.toml)) ∧
      (Large b → (b.asConfig >>= fun c => reparse c >>= fun t => (pure (k t) : Res Conf)) = .panic) := by
    rintro b k ⟨h1, h2⟩
    constructor
    · intro h; rw [bind2, (h1 h).2]; rfl
    · intro h; rw [bind2, h2 h]; rfl
  induction b with
  | array n =>
    refine ⟨fun h => ⟨_, rfl, rfl, ?_⟩, fun h _ => ⟨_, rfl, rfl, ?_⟩, fun _ h => (h trivial).elim⟩
    · have := (int_small n).2 h
      simp [Bld.toml, Toml.small, smallFields] at this ⊢; exact this
    · have := (hleaf n).2 h
      simp [Bld.toml, Toml.small, smallFields] at this ⊢; exact this
  | btree n =>
    refine ⟨fun h => ⟨_, rfl, rfl, ?_⟩, fun h _ => ⟨_, rfl, rfl, ?_⟩, fun _ h => (h trivial).elim⟩
    · have := (int_small n).2 h
      simp [Bld.toml, Toml.small, smallFields] at this ⊢; exact this
    · have := (hleaf n).2 h
      simp [Bld.toml, Toml.small, smallFields] at this ⊢; exact this
  | stream n =>
    refine ⟨fun h => ⟨_, rfl, rfl, ?_⟩, fun h _ => ⟨_, rfl, rfl, ?_⟩, fun _ h => (h trivial).elim⟩
    · have := (int_small n).2 h
      simp [Bld.toml, Toml.small, smallFields] at this ⊢; exact this
    · have := (hleaf n).2 h
      simp [Bld.toml, Toml.small, smallFields] at this ⊢; exact this
  | compressed f n =>
    refine ⟨fun h => ⟨_, rfl, by cases f <;> rfl, ?_⟩, fun h _ => ⟨_, rfl, by cases f <;> rfl, ?_⟩,
      fun _ h => (h trivial).elim⟩
    · have := (int_small n).2 h
      cases f <;> simp [Bld.toml, Toml.small, smallFields] at this ⊢ <;> exact this
    · have := (hleaf n).2 h
      cases f <;> simp [Bld.toml, Toml.small, smallFields] at this ⊢ <;> exact this
  | client a =>
    exact ⟨fun _ => ⟨_, rfl, rfl, rfl⟩, fun h => h.elim, fun h => h.elim⟩
  | exclusive f b ihf ihb =>
    obtain ⟨f1, f2⟩ := hstep ihf
    obtain ⟨b1, b2⟩ := hstep ihb
    have e : (Bld.exclusive f b).asConfig = ((f.asConfig >>= fun c => reparse c) >>= fun x =>
      (b.asConfig >>= fun c => reparse c) >>= fun y => pure (.plain "ExclusiveConfig" (.exclusive x y))) := by
      rw [← bind2]
      simp only [← bind2]
      rfl
    refine ⟨fun h => ?_, fun _ h => h.elim, fun h _ => ?_⟩
    · have hf : ¬ Large f := fun x => h (.inl x)
      have hb : ¬ Large b := fun x => h (.inr x)
      refine ⟨.plain "ExclusiveConfig" (.exclusive f.toml b.toml), ?_, rfl, ?_⟩
      · rw [e, (f1 hf).2, (b1 hb).2]; rfl
      · simp [Bld.toml, Toml.small, smallFields, (f1 hf).1, (b1 hb).1]
    · rw [e]
      by_cases hf : Large f
      · rw [f2 hf]; rfl
      · rw [(f1 hf).2, b2 (h.resolve_left hf)]; rfl
  | inclusive f b ihf ihb =>
    obtain ⟨f1, f2⟩ := hstep ihf
    obtain ⟨b1, b2⟩ := hstep ihb
    have e : (Bld.inclusive f b).asConfig = ((f.asConfig >>= fun c => reparse c) >>= fun x =>
      (b.asConfig >>= fun c => reparse c) >>= fun y => pure (.inclusive "InclusiveConfig" x y)) := by
      rw [← bind2]
      simp only [← bind2]
      rfl
    refine ⟨fun h => ?_, fun _ h => h.elim, fun h _ => ?_⟩
    · have hf : ¬ Large f := fun x => h (.inl x)
      have hb : ¬ Large b := fun x => h (.inr x)
      refine ⟨.inclusive "InclusiveConfig" f.toml b.toml, ?_, rfl, ?_⟩
      · rw [e, (f1 hf).2, (b1 hb).2]; rfl
      · simp [Bld.toml, Toml.small, smallFields, (f1 hf).1, (b1 hb).1]
    · rw [e]
      by_cases hf : Large f
      · rw [f2 hf]; rfl
      · rw [(f1 hf).2, b2 (h.resolve_left hf)]; rfl
  | flushStopper c ih =>
    have h0 := hstep ih
    obtain ⟨h1, h2⟩ := hwrap (fun t => .plain "FlushStopperConfig" (.flushStopper t)) h0
    exact ⟨fun h => ⟨_, h1 h, rfl, by simp [Bld.toml, Toml.small, smallFields, (h0.1 h).1]⟩,
      fun _ h => h.elim, fun h _ => h2 h⟩
  | profiler c ih =>
    have h0 := hstep ih
    obtain ⟨h1, h2⟩ := hwrap (fun t => .plain "ProfilerConfig" (.profiler t)) h0
    exact ⟨fun h => ⟨_, h1 h, rfl, by simp [Bld.toml, Toml.small, smallFields, (h0.1 h).1]⟩,
      fun _ h => h.elim, fun h _ => h2 h⟩
  | sequential c ih =>
    have h0 := hstep ih
    obtain ⟨h1, h2⟩ := hwrap (fun t => .plain "SequentialConfig" (.sequential t)) h0
    exact ⟨fun h => ⟨_, h1 h, rfl, by simp [Bld.toml, Toml.small, smallFields, (h0.1 h).1]⟩,
      fun _ h => h.elim, fun h _ => h2 h⟩
  | associative n c ih =>
    have h0 := hstep ih
    obtain ⟨h1, h2⟩ := hwrap (fun t => .plain "AssociativeConfig" (.associative (List.replicate n t))) h0
    refine ⟨fun h => ⟨_, h1 h, rfl, ?_⟩, fun _ h => h.elim, fun h _ => h2 h⟩
    have := smallAll_replicate n (h0.1 h).1
    simp [Bld.toml, Toml.small, smallFields, this]
  | decorator d c ih =>
    have h0 := hstep ih
    obtain ⟨h1, h2⟩ := hwrap (fun t => .decorator "DecoratorConfig" d t) h0
    exact ⟨fun h => ⟨_, h1 h, rfl, by simp [Bld.toml, Toml.small, smallFields, decorToml_small, (h0.1 h).1]⟩,
      fun _ h => h.elim, fun h _ => h2 h⟩

/-- **C89, exactly when `as_config()` panics**: for a builder holding others, if some capacity is 2^63
or more; and exactly when the text written can be read as TOML. -/
theorem C89_as_config (b : Bld) :
    (b.asConfig = .panic ↔ Large b ∧ ¬ Leaf b) ∧
    ((∃ c, b.asConfig = .ok c ∧ c.write.small = true) ↔ ¬ Large b) := by
  obtain ⟨h1, h2, h3⟩ := asConfig_spec b
  by_cases hl : Large b <;> by_cases hf : Leaf b
  · obtain ⟨c, e1, e2, e3⟩ := h2 hl hf
    simp only [e1, hl, hf]
    refine ⟨by simp, ?_⟩
    simp [e2, e3]
  · simp [h3 hl hf, hl, hf]
  · obtain ⟨c, e1, e2, e3⟩ := h1 hl
    refine ⟨by simp [e1, hl], ?_⟩
    simp [e1, e2, e3, hl]
  · obtain ⟨c, e1, e2, e3⟩ := h1 hl
    refine ⟨by simp [e1, hl], ?_⟩
    simp [e1, e2, e3, hl]

/-- The configuration, from those of the nested builders. -/
def conf : Bld → Conf
  | .array n => .plain "ArrayConfig" (.array n)
  | .btree n => .plain "BTreeConfig" (.btree n)
  | .stream n => .plain "StreamConfig" (.stream n)
  | .compressed f n => .plain "CompressedConfig" (.compressed f n)
  | .client a => .plain "SocketClientConfig" (.socketClient a)
  | .exclusive f b => .plain "ExclusiveConfig" (.exclusive f.toml b.toml)
  | .inclusive f b => .inclusive "InclusiveConfig" f.toml b.toml
  | .flushStopper c => .plain "FlushStopperConfig" (.flushStopper c.toml)
  | .profiler c => .plain "ProfilerConfig" (.profiler c.toml)
  | .sequential c => .plain "SequentialConfig" (.sequential c.toml)
  | .associative n c => .plain "AssociativeConfig" (.associative (List.replicate n c.toml))
  | .decorator d c => .decorator "DecoratorConfig" d c.toml

theorem conf_write (b : Bld) : (conf b).write = b.toml := by
  cases b <;> try rfl
  next f n => cases f <;> rfl

theorem asConfig_conf {b : Bld} {c : Conf} (h : b.asConfig = .ok c) : c = conf b := by
  have hn : ∀ {b : Bld} {x : Conf} {t : Toml}, b.asConfig = .ok x → reparse x = .ok t → t = b.toml := by
    intro b x t h1 h2
    obtain ⟨s1, s2, s3⟩ := asConfig_spec b
    have hw : x.write = b.toml := by
      by_cases hl : Large b
      · by_cases hf : Leaf b
        · obtain ⟨c, e1, e2, -⟩ := s2 hl hf
          rw [h1] at e1; cases e1; exact e2
        · rw [s3 hl hf] at h1; cases h1
      · obtain ⟨c, e1, e2, -⟩ := s1 hl
        rw [h1] at e1; cases e1; exact e2
    unfold reparse at h2
    split at h2
    · cases h2; exact hw
    · cases h2
  have ok : ∀ {α β : Type} {x : Res α} {k : α → Res β} {b : β}, (x >>= k) = .ok b → ∃ a, x = .ok a ∧ k a = .ok b := by
    intro α β x k b h
    cases x with
    | ok a => exact ⟨a, rfl, h⟩
    | panic => cases h
  cases b with
  | array | btree | stream | compressed | client => cases h; rfl
  | exclusive | inclusive =>
    obtain ⟨x, h1, h⟩ := ok h
    obtain ⟨y, h2, h⟩ := ok h
    obtain ⟨x', h3, h⟩ := ok h
    obtain ⟨y', h4, h⟩ := ok h
    cases h
    rw [hn h1 h2, hn h3 h4]; rfl
  | flushStopper | profiler | sequential | associative | decorator =>
    obtain ⟨x, h1, h⟩ := ok h
    obtain ⟨y, h2, h⟩ := ok h
    cases h
    rw [hn h1 h2]; rfl

theorem conf_build {w : World} {P : (V : Type) → Params K V} {clock : Nat → Nat} {b : Bld} (hp : Plain b)
    (hr : Resolves w b) : (conf b).build w P clock V = build w (P V) b.toml := by
  cases b with
  | array => exact buildPlain_eq rfl (parse_iff.2 (.array rfl))
  | btree => exact buildPlain_eq rfl (parse_iff.2 (.btree rfl))
  | stream => exact buildPlain_eq rfl (parse_iff.2 (.stream rfl))
  | compressed f n =>
    cases f
    · exact buildPlain_eq rfl (parse_iff.2 (.compressed rfl rfl))
    · exact buildPlain_eq rfl (parse_iff.2 (.compressed rfl rfl))
  | client => exact buildPlain_eq rfl (parse_iff.2 (.socketClient rfl hr))
  | exclusive => exact buildPlain_eq rfl (parse_iff.2 (.exclusive rfl rfl))
  | flushStopper => exact buildPlain_eq rfl (parse_iff.2 (.flushStopper rfl))
  | profiler => exact buildPlain_eq rfl (parse_iff.2 (.profiler rfl))
  | sequential => exact buildPlain_eq rfl (parse_iff.2 (.sequential rfl))
  | associative => exact buildPlain_eq rfl (parse_iff.2 (.associative rfl))
  | inclusive => exact hp.elim
  | decorator => exact hp.elim

theorem asConfig_ok {b : Bld} (h : Leaf b ∨ ¬ Large b) : b.asConfig = .ok (conf b) := by
  obtain ⟨h1, h2, h3⟩ := asConfig_spec b
  by_cases hl : Large b
  · obtain ⟨c, e, -⟩ := h2 hl (h.resolve_right (fun x => x hl))
    rw [e, asConfig_conf e]
  · obtain ⟨c, e, -⟩ := h1 hl
    rw [e, asConfig_conf e]

theorem plain_builds {w : World} {P : (V : Type) → Params K V} {clock : Nat → Nat} {b : Bld} (hp : Plain b)
    (hpop : Populated b) (hr : Resolves w b) (ho : ∀ f, w.opens f = true) {V : Type} {m : Bld.Made K V}
    (hm : b.make P clock V = .ok m) :
    ∃ x, buildNested w (P V) b.toml = .ok x ∧ x.capacity = m.capacity := by
  obtain ⟨g, hg⟩ := (C45_accepts_iff w _).2 ((toml_valid w b hpop).2 ⟨hp, hr⟩)
  obtain ⟨ha, hn⟩ := toml_available ho b hp hr m hm
  obtain ⟨x, hx, hc⟩ := C45_config_builds w (P V) hg ha
  exact ⟨x, by rw [buildNested_eq hg, ← fromToml_toml hg]; exact hx, (hc _).1 hn⟩

theorem plain_not_built {w : World} {P : Params K V} {b : Bld} (hp : ¬ Plain b) (hpop : Populated b) :
    buildNested w P b.toml = .panic := by
  cases h : buildNested w P b.toml with
  | panic => rfl
  | ok x =>
    obtain ⟨hg, -⟩ := buildNested_ok.1 h
    exact absurd ((toml_valid w b hpop).1 ((C45_accepts_iff w _).1 hg)).1 hp

/-- **C89, proved part**: when no capacity is 2^63 or more (or the builder holds no other) and the only
`Decorator` or `Inclusive` is the outermost container. -/
theorem C89_partial (w : World) (P : (V : Type) → Params K V) (clock : Nat → Nat) (b : Bld)
    (hs : Leaf b ∨ ¬ Large b) (ht : TopOnly b) (hpop : Populated b) (hr : Resolves w b)
    (ho : ∀ f, w.opens f = true) :
    ∃ c, b.asConfig = .ok c ∧ ∀ m, b.make P clock V = .ok m →
      ∃ x, c.build w P clock V = .ok x ∧ x.capacity = m.capacity := by
  refine ⟨conf b, asConfig_ok hs, fun m hm => ?_⟩
  by_cases hp : Plain b
  · obtain ⟨x, hx, hc⟩ := plain_builds hp hpop hr ho hm
    exact ⟨x, by rw [conf_build hp hr]; exact (buildNested_ok.1 hx).2, hc⟩
  cases b with
  | inclusive f b =>
    simp only [Bld.make] at hm
    split at hm
    · next f' b' hf hb =>
      obtain ⟨x, hx, hxc⟩ := plain_builds ht.1 hpop.1 hr.1 ho hf
      obtain ⟨y, hy, hyc⟩ := plain_builds ht.2 hpop.2 hr.2 ho hb
      by_cases hle : f'.capacity ≤ b'.capacity
      · have h1 : inclusiveNew f'.1 b'.1 f'.2 b'.2 = .ok (f'.2, b'.2) := if_pos hle
        have h2 : inclusiveNew x.block y.block x.state y.state = .ok (x.state, y.state) :=
          if_pos (show x.capacity ≤ y.capacity by rw [hxc, hyc]; exact hle)
        rw [h1] at hm
        cases hm
        refine ⟨.new (Byoc.inclusive x.block y.block) (x.state, y.state) false, ?_, ?_⟩
        · simp only [conf, Conf.build, hx, hy]
          show (match inclusiveNew x.block y.block x.state y.state with
            | .ok s => Res.ok (Built.new (Byoc.inclusive x.block y.block) s false)
            | .panic => .panic) = _
          rw [h2]
        · exact hyc
      · have h1 : inclusiveNew f'.1 b'.1 f'.2 b'.2 = .panic := if_neg hle
        rw [h1] at hm
        cases hm
    · cases hm
  | decorator d c =>
    cases d with
    | none => exact plain_builds ht hpop hr ho hm
    | fifo =>
      simp only [Bld.make] at hm
      split at hm
      · next c' hc =>
        cases hm
        obtain ⟨x, hx, hxc⟩ := plain_builds ht hpop hr ho hc
        refine ⟨.new (Byoc.decorator (Byoc.fifo V) x.block) (x.state, (0 : Nat)) false, ?_, hxc⟩
        simp only [conf, Conf.build]
        rw [hx]
        rfl
      · cases hm
    | lru =>
      simp only [Bld.make] at hm
      split at hm
      · next c' hc =>
        cases hm
        obtain ⟨x, hx, hxc⟩ := plain_builds ht hpop hr ho hc
        refine ⟨.new (Byoc.decorator (Byoc.lru V clock) x.block) (x.state, (0 : Nat)) false, ?_, hxc⟩
        simp only [conf, Conf.build]
        rw [hx]
        rfl
      · cases hm
    | lrfu e =>
      simp only [Bld.make] at hm
      split at hm
      · next c' hc =>
        cases hm
        obtain ⟨x, hx, hxc⟩ := plain_builds ht hpop hr ho hc
        refine ⟨.new (Byoc.decorator (Byoc.lrfu V e clock) x.block) (x.state, (0 : Nat)) false, ?_, hxc⟩
        simp only [conf, Conf.build]
        rw [hx]
        rfl
      · cases hm
  | _ => exact absurd ht hp

/-- **C89, the other side**: with a `Decorator` or an `Inclusive` inside another container, the
configuration `as_config()` returns panics when it is built. -/
theorem C89_nested_panics (w : World) (P : (V : Type) → Params K V) (clock : Nat → Nat) (b : Bld)
    (ht : ¬ TopOnly b) (hpop : Populated b) (c : Conf) (hc : b.asConfig = .ok c) :
    c.build w P clock V = .panic := by
  rw [asConfig_conf hc]
  have one : ∀ {cfg : Cfg} {x : Bld}, x.toml ∈ cfg.children → ¬ Plain x → Populated x →
      buildPlain w (P V) cfg = .panic := by
    intro cfg x hx hp hpop
    have hv : ∀ g, fromToml w x.toml ≠ .ok g := by
      intro g hg
      exact hp ((toml_valid w x hpop).1 ((C45_accepts_iff w _).1 ⟨g, hg⟩)).1
    unfold buildPlain
    split
    · rfl
    · next gs hgs =>
      have := (mapM_except _ _ _).1 hgs
      obtain ⟨g, hg⟩ := forall2_mem this _ hx
      exact absurd hg (hv g)
  cases b with
  | array | btree | stream | compressed | client => exact (ht trivial).elim
  | exclusive f b =>
    by_cases hf : Plain f
    · exact one (x := b) (by simp [Cfg.children]) (fun h => ht ⟨hf, h⟩) hpop.2
    · exact one (x := f) (by simp [Cfg.children]) hf hpop.1
  | inclusive f b =>
    by_cases hf : Plain f
    · simp only [conf, Conf.build, plain_not_built (w := w) (P := P (InclCell V)) (fun h => ht ⟨hf, h⟩) hpop.2]
      cases buildNested w (P (InclCell V)) f.toml <;> rfl
    · simp only [conf, Conf.build, plain_not_built (w := w) (P := P (InclCell V)) hf hpop.1]
      rfl
  | flushStopper c => exact one (x := c) (by simp [Cfg.children]) ht hpop
  | profiler c => exact one (x := c) (by simp [Cfg.children]) ht hpop
  | sequential c => exact one (x := c) (by simp [Cfg.children]) ht hpop
  | associative n c =>
    have hn : 0 < n := hpop.1
    exact one (x := c) (by simp [Cfg.children, List.mem_replicate]; omega) (fun h => ht ⟨hn, h⟩) hpop.2
  | decorator d c =>
    cases d with
    | none => exact plain_not_built ht hpop
    | fifo => simp only [conf, Conf.build, plain_not_built (w := w) (P := P _) ht hpop]; rfl
    | lru => simp only [conf, Conf.build, plain_not_built (w := w) (P := P _) ht hpop]; rfl
    | lrfu => simp only [conf, Conf.build, plain_not_built (w := w) (P := P _) ht hpop]; rfl

/-- **C89 is false of the code**: the builder of the documentation. -/
theorem C89_false : ¬ C89_full := by
  intro h
  obtain ⟨c, hc, hb⟩ := h Nat Nat inferInstance anyWorld anyParams id docBuilder ⟨trivial, trivial⟩
    ⟨trivial, trivial⟩ fun _ => rfl
  obtain ⟨x, hx, -⟩ := hb _ rfl
  rw [C89_nested_panics anyWorld anyParams id docBuilder (fun h => h) ⟨trivial, trivial⟩ c hc] at hx
  cases hx

/-- And a capacity of 2^63 in a nested builder is enough for `as_config()` itself to panic. -/
theorem C89_large : (Bld.sequential (.array (2 ^ 63))).asConfig = .panic ∧
    ∃ c, (Bld.array (2 ^ 63)).asConfig = .ok c :=
  ⟨(C89_as_config _).1.2 ⟨le_refl _, fun h => h⟩, _, rfl⟩

/-- A policy on a hierarchy meets the hypotheses of `C89_partial`. -/
theorem C89_example : ∃ (b : Bld) (m : Bld.Made Nat Nat), ¬ Large b ∧ TopOnly b ∧ ¬ Plain b ∧ Populated b ∧
    Resolves anyWorld b ∧ b.make anyParams id Nat = .ok m ∧ m.capacity = 8 :=
  ⟨.decorator .lru (.exclusive (.array 2) (.associative 2 (.array 3))), _,
    by simp [Large], ⟨trivial, by decide, trivial⟩, fun h => h, ⟨trivial, by decide, trivial⟩,
    ⟨trivial, trivial⟩, rfl, rfl⟩

/-- **C60, on texts**: what `as_config()` writes is what `ConfigBuilder` reads in `C60_partial`: without
`Decorator` and `Inclusive` and below 2^63, the text is read by `ConfigBuilder`, which builds a container of
the same capacity. -/
theorem C60_text_partial (w : World) (P : (V : Type) → Params K V) (clock : Nat → Nat) (b : Bld)
    (hs : ¬ Large b) (hp : Plain b) (hpop : Populated b) (hr : Resolves w b) (ho : ∀ f, w.opens f = true) :
    ∃ c g, b.asConfig = .ok c ∧ fromString w "ConfigBuilder" c.write = .ok (.builder g) ∧
      ∀ m, b.make P clock V = .ok m →
        ∃ x, (Conf.builder g).build w P clock V = .ok x ∧ x.capacity = m.capacity := by
  obtain ⟨g, hg, hb⟩ := C60_partial (V := V) w P clock b hp hpop hr ho
  obtain ⟨c, e1, e2, e3⟩ := (asConfig_spec b).1 hs
  obtain ⟨t, ht⟩ := toml_table b
  refine ⟨c, g, e1, ?_, hb⟩
  rw [e2]
  refine fromString_ok.2 ⟨t, ht, ?_, read_builder.2 ⟨g, ht ▸ hg, rfl⟩⟩
  rw [ht] at e3
  simpa [Toml.small] using e3

/-! ## C90 -/

open Socket SocketProps

/-- What a client is told when it makes these requests to a container used by nobody else. -/
def replies {C : Block K V} (s : C.State) (rs : List (Request K V)) : Res (List (Response K V)) :=
  (locally C s rs).bind fun x => .ok x.1

/-- **C90, full statement.** For every server configuration read, whose container can be built:
`ConfigBuilder` accepts the configuration of the container, and a client of the server configured is told
what a caller of the container built by `ConfigBuilder` is told.  False of the code, see `C90_false`. -/
def C90_full : Prop := ∀ (K V : Type) (_ : LinearOrder K) (w : World) (P : DParams K V) (v : Toml)
  (id a : String) (c : Toml), fromString w "SocketServerConfig" v = .ok (.server id a c) → DAvailable w P c →
  ∃ g b b', builderFromToml w c = .ok g ∧ builderBuild w P g = .ok b ∧
    (Conf.server id a c).serve w P.plain = .ok (a, b') ∧
    ∀ rs, replies (C := b'.block) b'.state rs = replies (C := b.block) b.state rs

/-- **C90, proved part**: when the configuration of the container has no `decorator` (or one without a
`kind`).  The container served at the address is the one of `ConfigBuilder`, and whatever a client does, if
no request takes longer than the timeout of the server to arrive, it is told what a caller of this
container is told. -/
theorem C90_partial (ck : Socket.Codec K) (cv : Socket.Codec V) (hk : ck.Lawful) (hv : cv.Lawful)
    (w : World) (P : DParams K V) (v : Toml) (id a : String) (t : Fields)
    (h : fromString w "SocketServerConfig" v = .ok (.server id a (.table t)))
    (hd : t.lookup "decorator" = none ∨ ∃ d, t.lookup "decorator" = some (.table d) ∧ d.lookup "kind" = none)
    (ha : Available w P.plain (.table t)) :
    ∃ g b, builderFromToml w (.table t) = .ok g ∧ builderBuild w P g = .ok b ∧
      (Conf.server id a (.table t)).serve w P.plain = .ok (a, b) ∧ w.resolves a = true ∧
      ∀ es, ({ server := some b.state } : Link b.block).Prompt ck cv es →
        let l := ({ server := some b.state } : Link b.block).run ck cv es
        replies (C := b.block) b.state (l.log.map Prod.fst) = .ok (l.log.map Prod.snd) ∧ l.clientPanic = false := by
  obtain ⟨t', rfl, -, h⟩ := fromString_ok.1 h
  obtain ⟨id', a', v', h1, h2, h3, h4, ⟨g, h5⟩, e⟩ := read_server.1 h
  cases e
  have hdn : decoratorOf t = .ok .none := by
    unfold decoratorOf
    rcases hd with hd | ⟨d, hd, hkd⟩
    · rw [hd]
    · rw [hd]; simp only [hkd]
  obtain ⟨b, hb, -⟩ := C45_config_builds w P.plain h5 ha
  refine ⟨⟨g, .none⟩, b, ?_, hb, ?_, h4, ?_⟩
  · simp only [builderFromToml, hdn, h5, bind, Except.bind, pure, Except.pure]
  · have : buildNested w P.plain (.table t) = .ok b := by
      unfold buildNested; rw [h5]; exact hb
    show (buildNested w P.plain (.table t) >>= fun x => pure (a, x)) = _
    rw [this]; rfl
  · intro es hp l
    obtain ⟨s, e1, e2, -⟩ := C43_partial ck cv hk hv b.block b.state es hp
    refine ⟨?_, e2⟩
    unfold replies
    rw [e1]; rfl

/-- The call a request makes. -/
def callOf : Request K V → Option (Op K V)
  | .contains k => some (.contains k)
  | .take k => some (.take k)
  | .takeMultiple ks => some (.takeMultiple ks)
  | .pop n => some (.pop n)
  | .push l => some (.push l)
  | .flush => some .flush
  | _ => none

omit [LinearOrder K] in
theorem direct_ok {C : Block K V} {s : C.State} {r : Request K V} :
    (∀ x, direct C s r = .ok x → ∃ out, C.run s (callOf r).toList = .ok (out, x.2)) ∧
    (direct C s r = .panic → C.run s (callOf r).toList = .panic) := by
  cases r with
  | capacity => exact ⟨fun x h => by cases h; exact ⟨[], rfl⟩, fun h => by cases h⟩
  | size => exact ⟨fun x h => by cases h; exact ⟨[], rfl⟩, fun h => by cases h⟩
  | contains k =>
    simp only [direct, callOf, Option.toList, Block.run, Block.step]
    cases C.contains s k with
    | panic => exact ⟨fun x h => (by cases h), fun _ => rfl⟩
    | ok y => exact ⟨fun x h => by cases h; exact ⟨_, rfl⟩, fun h => by cases h⟩
  | take k =>
    simp only [direct, callOf, Option.toList, Block.run, Block.step]
    cases C.take s k with
    | panic => exact ⟨fun x h => (by cases h), fun _ => rfl⟩
    | ok y => exact ⟨fun x h => by cases h; exact ⟨_, rfl⟩, fun h => by cases h⟩
  | takeMultiple k =>
    simp only [direct, callOf, Option.toList, Block.run, Block.step]
    cases C.takeMultiple s k with
    | panic => exact ⟨fun x h => (by cases h), fun _ => rfl⟩
    | ok y => exact ⟨fun x h => by cases h; exact ⟨_, rfl⟩, fun h => by cases h⟩
  | pop k =>
    simp only [direct, callOf, Option.toList, Block.run, Block.step]
    cases C.pop s k with
    | panic => exact ⟨fun x h => (by cases h), fun _ => rfl⟩
    | ok y => exact ⟨fun x h => by cases h; exact ⟨_, rfl⟩, fun h => by cases h⟩
  | push k =>
    simp only [direct, callOf, Option.toList, Block.run, Block.step]
    cases C.push s k with
    | panic => exact ⟨fun x h => (by cases h), fun _ => rfl⟩
    | ok y => exact ⟨fun x h => by cases h; exact ⟨_, rfl⟩, fun h => by cases h⟩
  | flush =>
    simp only [direct, callOf, Option.toList, Block.run, Block.step]
    cases C.flush s with
    | panic => exact ⟨fun x h => (by cases h), fun _ => rfl⟩
    | ok y => exact ⟨fun x h => by cases h; exact ⟨_, rfl⟩, fun h => by cases h⟩

omit [LinearOrder K] in
theorem run_append {C : Block K V} (l₁ l₂ : List (Op K V)) : ∀ (s : C.State),
    C.run s (l₁ ++ l₂) = (C.run s l₁ >>= fun x => C.run x.2 l₂ >>= fun y => pure (x.1 ++ y.1, y.2)) := by
  induction l₁ with
  | nil =>
    intro s
    show C.run s l₂ = (C.run s l₂ >>= fun y => pure ([] ++ y.1, y.2))
    cases C.run s l₂ <;> rfl
  | cons op l₁ ih =>
    intro s
    simp only [List.cons_append, Block.run]
    cases C.step s op with
    | panic => rfl
    | ok x =>
      show (C.run x.2 (l₁ ++ l₂) >>= fun y => pure (x.1 ++ y.1, y.2)) = _
      rw [ih]
      show _ = ((C.run x.2 l₁ >>= fun y => pure (x.1 ++ y.1, y.2)) >>= fun x => C.run x.2 l₂ >>= fun y => pure (x.1 ++ y.1, y.2))
      cases C.run x.2 l₁ with
      | panic => rfl
      | ok y =>
        show ((C.run y.2 l₂ >>= fun z => pure (y.1 ++ z.1, z.2)) >>= fun y => pure (x.1 ++ y.1, y.2)) =
          (C.run y.2 l₂ >>= fun z => pure (x.1 ++ y.1 ++ z.1, z.2))
        cases C.run y.2 l₂ with
        | panic => rfl
        | ok z => show Res.ok _ = Res.ok _; rw [List.append_assoc]

omit [LinearOrder K] in
theorem locally_run {C : Block K V} : ∀ (rs : List (Request K V)) (s : C.State) x,
    locally C s rs = .ok x → ∃ out, C.run s (rs.flatMap fun r => (callOf r).toList) = .ok (out, x.2) := by
  intro rs
  induction rs with
  | nil => intro s x h; cases h; exact ⟨[], rfl⟩
  | cons r rs ih =>
    intro s x h
    unfold locally at h
    cases h1 : direct C s r with
    | panic => rw [h1] at h; cases h
    | ok y =>
      rw [h1] at h
      replace h : (locally C y.2 rs).bind (fun z => .ok (y.1 :: z.1, z.2)) = .ok x := h
      cases h2 : locally C y.2 rs with
      | panic => rw [h2] at h; cases h
      | ok z =>
        rw [h2] at h
        cases h
        obtain ⟨o1, e1⟩ := direct_ok.1 y h1
        obtain ⟨o2, e2⟩ := ih y.2 z h2
        refine ⟨o1 ++ o2, ?_⟩
        rw [List.flatMap_cons, run_append, e1]
        show (C.run y.2 _ >>= _) = _
        rw [e2]; rfl

/-- The requests made and not answered yet, and those answered, are among the calls. -/
def Known {C : Block K V} (l : Link C) (R : Request K V → Prop) : Prop :=
  (∀ x ∈ l.log, R x.1) ∧ ∀ r, l.waiting = some r → R r

omit [LinearOrder K] in
theorem known_step {C : Block K V} (ck : Socket.Codec K) (cv : Socket.Codec V) {R : Request K V → Prop}
    (l : Link C) (e : Ev K V) (h : Known l R) (he : ∀ r, e = .call r → R r) : Known (l.step ck cv e) R := by
  obtain ⟨h1, h2⟩ := h
  cases e with
  | call r =>
    simp only [Link.step]
    split
    · exact ⟨h1, fun x hx => by cases hx; exact he _ rfl⟩
    · exact ⟨h1, h2⟩
  | deliver =>
    simp only [Link.step]
    split
    · split
      · exact ⟨h1, h2⟩
      · split
        · split
          · exact ⟨h1, h2⟩
          · exact ⟨h1, h2⟩
        · exact ⟨h1, h2⟩
      · exact ⟨h1, h2⟩
      · exact ⟨h1, h2⟩
    · exact ⟨h1, h2⟩
  | timeout => exact ⟨h1, h2⟩
  | receive =>
    simp only [Link.step]
    split
    · next r b rest hw _ =>
      split
      · exact ⟨h1, h2⟩
      · split
        · exact ⟨h1, h2⟩
        · split
          · refine ⟨fun x hx => ?_, fun r hr => by cases hr⟩
            rcases List.mem_append.1 hx with hx | hx
            · exact h1 x hx
            · rw [List.mem_singleton.1 hx]; exact h2 r hw
          · exact ⟨h1, h2⟩
        · exact ⟨h1, h2⟩
    · exact ⟨h1, h2⟩

omit [LinearOrder K] in
theorem known_run {C : Block K V} (ck : Socket.Codec K) (cv : Socket.Codec V) {R : Request K V → Prop} :
    ∀ (es : List (Ev K V)) (l : Link C), Known l R → (∀ r, Ev.call r ∈ es → R r) → Known (l.run ck cv es) R := by
  intro es
  induction es with
  | nil => intro l h _; exact h
  | cons e es ih =>
    intro l h he
    exact ih _ (known_step ck cv l e h (fun r hr => he r (hr ▸ List.mem_cons_self)))
      (fun r hr => he r (List.mem_cons_of_mem _ hr))

/-- **C90, the server stays up**: with Arrays as leaves and no `pop` through an `Associative`, whatever the
client does, the server answers, unless it has 2^64 elements or more to send at once. -/
theorem C90_stays_up (ck : Socket.Codec K) (cv : Socket.Codec V) (hk : ck.Lawful) (hv : cv.Lawful)
    (w : World) (P : Params K V) (v : Toml) (id a : String) (c : Toml)
    (h : fromString w "SocketServerConfig" v = .ok (.server id a c))
    (h1 : OnlyArrays c) (h2 : NoEmptyAssociative c) (a' : String) (b : Built K V)
    (hb : (Conf.server id a c).serve w P = .ok (a', b)) (es : List (Ev K V))
    (hp : ({ server := some b.state } : Link b.block).Prompt ck cv es)
    (ho : No "AssociativeConfig" c ∨ ∀ n, Ev.call (.pop n) ∉ es) :
    let l := ({ server := some b.state } : Link b.block).run ck cv es
    a' = a ∧ (l.server = none → ∃ r s resp s', l.waiting = some r ∧
      locally b.block b.state (l.log.map Prod.fst) = .ok (l.log.map Prod.snd, s) ∧
      direct b.block s r = .ok (resp, s') ∧ resp.fits = false) := by
  intro l
  have hb' : a' = a ∧ buildNested w P c = .ok b := by
    replace hb : (buildNested w P c >>= fun x => pure (a, x)) = .ok (a', b) := hb
    cases hx : buildNested w P c with
    | panic => rw [hx] at hb; cases hb
    | ok x => rw [hx] at hb; cases hb; exact ⟨rfl, rfl⟩
  obtain ⟨rfl, hb'⟩ := hb'
  refine ⟨rfl, fun hn => ?_⟩
  obtain ⟨s, e1, e2, e3, e4⟩ := C43_partial ck cv hk hv b.block b.state es hp
  obtain ⟨r, hr, hf⟩ := e4 hn
  obtain ⟨⟨g, hg⟩, hb⟩ := buildNested_ok.1 hb'
  have hkn : Known l (fun r => Ev.call r ∈ es) :=
    known_run ck cv es _ ⟨fun x hx => (by cases hx), fun r hr => (by cases hr)⟩ fun r hr => hr
  have hop : No "AssociativeConfig" c ∨
      ∀ op ∈ (l.log.map Prod.fst ++ [r]).flatMap (fun r => (callOf r).toList), op.NotPop := by
    rcases ho with ho | ho
    · exact .inl ho
    · refine .inr fun op hop => ?_
      obtain ⟨q, hq, hqo⟩ := List.mem_flatMap.1 hop
      have hq : Ev.call q ∈ es := by
        rcases List.mem_append.1 hq with hq | hq
        · obtain ⟨x, hx, rfl⟩ := List.mem_map.1 hq
          exact hkn.1 x hx
        · rw [List.mem_singleton.1 hq]; exact hkn.2 r hr
      cases q with
      | pop n => exact absurd hq (ho n)
      | capacity => simp [callOf] at hqo
      | size => simp [callOf] at hqo
      | contains | take | takeMultiple | push | flush =>
        simp only [callOf, Option.toList, List.mem_singleton] at hqo
        subst hqo; exact trivial
  obtain ⟨out, s', r1, -⟩ := C61_partial w P hg (by rw [fromToml_toml hg]; exact hb) h1 h2 _ hop
  rw [List.flatMap_append, run_append] at r1
  obtain ⟨o, ho'⟩ := locally_run _ _ _ e1
  rw [ho'] at r1
  replace r1 : (b.block.run s ([r].flatMap fun r => (callOf r).toList) >>= fun y => pure (o ++ y.1, y.2)) = .ok (out, s') := r1
  rw [List.flatMap_singleton] at r1
  cases hd : direct b.block s r with
  | panic =>
    rw [direct_ok.2 hd] at r1
    cases r1
  | ok x => exact ⟨r, s, x.1, x.2, hr, e1, hd, hf _ _ hd⟩

theorem lookup_filter (t : Fields) {n : String} (h : n ≠ "decorator") :
    (t.filter fun x => x.1 ≠ "decorator").lookup n = t.lookup n := by
  induction t with
  | nil => rfl
  | cons p t ih =>
    obtain ⟨m, v⟩ := p
    by_cases hm : m = "decorator"
    · subst hm
      simp only [ne_eq, not_true_eq_false, decide_false, Bool.false_eq_true, not_false_eq_true, List.filter_cons_of_neg, List.lookup_cons]
      rw [beq_eq_false_iff_ne.2 h]
      simpa using ih
    · simp only [ne_eq, hm, not_false_eq_true, decide_true, List.filter_cons_of_pos, List.lookup_cons]
      simp only [ne_eq] at ih
      rw [ih]

theorem parse_filter {w : World} {t : Fields} {id : String} :
    parse w id (t.filter fun x => x.1 ≠ "decorator") = parse w id t := by
  have l : ∀ {n}, n ≠ "decorator" → (t.filter fun x => x.1 ≠ "decorator").lookup n = t.lookup n :=
    fun h => lookup_filter t h
  unfold parse Config.string Config.optString Config.usize Config.array
  simp only [l (n := "capacity") (by decide), l (n := "container") (by decide), l (n := "filename") (by decide),
    l (n := "front") (by decide), l (n := "back") (by decide), l (n := "address") (by decide)]

/-- **C90, the other side**: the `decorator` field of the container served, whatever it holds, is ignored. -/
theorem C90_decorator_ignored (w : World) (P : Params K V) (id a : String) (t : Fields) :
    (Conf.server id a (.table t)).serve w P =
      (Conf.server id a (.table (t.filter fun x => x.1 ≠ "decorator"))).serve w P := by
  have hl := lookup_filter t (n := "id") (by decide)
  have hg : (∃ g, fromToml w (.table t) = .ok g) ↔
      ∃ g, fromToml w (.table (t.filter fun x => x.1 ≠ "decorator")) = .ok g := by
    constructor
    · rintro ⟨g, hg⟩
      obtain ⟨t', i, cfg, gs, e, h1, h2, h3, -⟩ := fromToml_iff.1 hg
      cases e
      exact ⟨_, fromToml_iff.2 ⟨_, i, cfg, gs, rfl, hl.trans h1, parse_filter.trans h2, h3, rfl⟩⟩
    · rintro ⟨g, hg⟩
      obtain ⟨t', i, cfg, gs, e, h1, h2, h3, -⟩ := fromToml_iff.1 hg
      cases e
      exact ⟨_, fromToml_iff.2 ⟨_, i, cfg, gs, rfl, hl.symm.trans h1, parse_filter.symm.trans h2, h3, rfl⟩⟩
  have hb : ∀ b, build w P (.table t) = .ok b ↔
      build w P (.table (t.filter fun x => x.1 ≠ "decorator")) = .ok b := by
    intro b
    rw [build_iff, build_iff]
    constructor
    · rintro ⟨t', i, cfg, gs, bs, e, h1, h2, h3⟩
      cases e
      exact ⟨_, i, cfg, gs, bs, rfl, hl.trans h1, parse_filter.trans h2, h3⟩
    · rintro ⟨t', i, cfg, gs, bs, e, h1, h2, h3⟩
      cases e
      exact ⟨_, i, cfg, gs, bs, rfl, hl.symm.trans h1, parse_filter.symm.trans h2, h3⟩
  have key : buildNested w P (.table t) = buildNested w P (.table (t.filter fun x => x.1 ≠ "decorator")) := by
    have e : ∀ b, buildNested w P (.table t) = .ok b ↔
        buildNested w P (.table (t.filter fun x => x.1 ≠ "decorator")) = .ok b := by
      intro b
      rw [buildNested_ok, buildNested_ok, hg, hb]
    cases h1 : buildNested w P (.table t) with
    | ok b => exact ((e b).1 h1).symm
    | panic =>
      cases h2 : buildNested w P (.table (t.filter fun x => x.1 ≠ "decorator")) with
      | ok b => rw [(e b).2 h2] at h1; cases h1
      | panic => rfl
  show (buildNested w P (.table t) >>= fun x => pure (a, x)) = (buildNested w P _ >>= fun x => pure (a, x))
  rw [key]

/-- An Array with the `Fifo` policy. -/
def fifoToml : Toml := .table [("id", .str "ArrayConfig"), ("capacity", .int (3 : Nat)),
  ("decorator", .table [("kind", .str "Fifo")])]

/-- Elements sorted in the order of the policy. -/
noncomputable def fifoParams : DParams Nat Nat where
  plain := natParams
  clock := id
  fifo := { anyParams (FifoCell Nat) with
    srt := Sorter.ofLe fun a b : Nat × FifoCell Nat => b.2.counter ≤ a.2.counter
    srtS := Sorter.ofLe fun a b : Nat × FifoCell Nat => b.2.counter ≤ a.2.counter }
  lru := anyParams _
  lrfu := anyParams _

theorem fifo_available {V : Type} (P : Params Nat V) : Available anyWorld P fifoToml :=
  (available_iff rfl (parse_iff.2 (.array rfl))).2 ⟨trivial, by simp [Cfg.children]⟩

/-- **C90 is false of the code**: behind the server the policy is gone, another element is evicted. -/
theorem C90_false : ¬ C90_full := by
  intro h
  have hg : fromToml anyWorld fifoToml = .ok ⟨false, fifoToml⟩ :=
    fromToml_iff.2 ⟨_, "ArrayConfig", .array 3, [], rfl, rfl, parse_iff.2 (.array rfl), .nil, rfl⟩
  have hr : fromString anyWorld "SocketServerConfig" (.table [("id", .str "SocketServerConfig"),
      ("address", .str "localhost:6382"), ("container", fifoToml)]) =
      .ok (.server "SocketServerConfig" "localhost:6382" fifoToml) :=
    fromString_ok.2 ⟨_, rfl, by decide, read_server.2 ⟨_, _, _, rfl, rfl, rfl, rfl, ⟨_, hg⟩, rfl⟩⟩
  obtain ⟨g, b, b', e1, e2, e3, e4⟩ := h Nat Nat _ anyWorld fifoParams _ _ _ _ hr
    ⟨fifo_available _, fifo_available _, fifo_available _, fifo_available _, rfl, rfl, rfl⟩
  have hb1 : build anyWorld natParams fifoToml =
      .ok (.new (arrayBlock (fun _ => 1) natParams.srt natParams.srtS) (Array.new 3) false) :=
    build_iff.2 ⟨_, "ArrayConfig", .array 3, [], [], rfl, rfl, parse_iff.2 (.array rfl), .nil, .nil, rfl⟩
  have hb2 : build anyWorld fifoParams.fifo fifoToml =
      .ok (.new (arrayBlock (fun _ => 1) fifoParams.fifo.srt fifoParams.fifo.srtS) (Array.new 3) false) :=
    build_iff.2 ⟨_, "ArrayConfig", .array 3, [], [], rfl, rfl, parse_iff.2 (.array rfl), .nil, .nil, rfl⟩
  have eg : g = ⟨⟨false, fifoToml⟩, .fifo⟩ := by
    unfold fifoToml at e1
    simp only [builderFromToml, bind, Except.bind, pure, Except.pure] at e1
    rw [show decoratorOf _ = .ok .fifo from rfl] at e1
    unfold fifoToml at hg
    simp only [hg] at e1
    cases e1; rfl
  subst eg
  replace e2 : (build anyWorld fifoParams.fifo fifoToml >>= fun c => pure
    (Built.new (decorator (Byoc.fifo Nat) c.block) (c.state, (0 : Nat)) false)) = .ok b := e2
  rw [hb2] at e2
  cases e2
  replace e3 : (buildNested anyWorld natParams fifoToml >>= fun x => pure ("localhost:6382", x)) = .ok ("localhost:6382", b') := e3
  rw [buildNested_ok.2 ⟨⟨_, hg⟩, hb1⟩] at e3
  cases e3
  have := e4 [.push [(1, 5)], .push [(2, 7)], .pop 1]
  revert this
  decide +kernel

omit [LinearOrder K] in
/-- **C90, connections**: the server configured accepts one connection, and ends when it is closed. -/
theorem C90_one_connection (b : Built K V) (es : List (SEv K V)) (accept : Bool) :
    ((served b).run es).conn = 0 ∧
    (match ((served b).run es).pc with
      | .read => match (((served b).run es).step (.read .eof accept)).pc with | .stopped => True | _ => False
      | _ => True) := by
  have hc := C44_bounded b.block b.state 0 es
  have hp : ∀ (es : List (SEv K V)) (s : Server b.block), s.persistent = some 0 → (s.run es).persistent = some 0 := by
    intro es
    induction es with
    | nil => intro s h; exact h
    | cons e es ih =>
      intro s h
      refine ih _ ?_
      obtain ⟨m, h1, h2⟩ := step_some s e 0 h
      have : ∀ s : Server b.block, s.persistent = some 0 → ∀ b, (s.tryReconnect b).2.persistent = some 0 := by
        intro s h b
        unfold Server.tryReconnect; rw [h]; exact h
      unfold Server.step
      split <;> try exact h
      · split
        · split <;> exact h
        · exact h
        · exact this s h _
        · exact h
        · exact h
        · exact h
      · split
        · exact h
        · dsimp only
          split
          · split
            · exact this s h _
            · exact this s h _
          · exact this s h _
        · exact h
        · exact h
        · exact h
  have hp := hp es (served b) rfl
  refine ⟨Nat.le_zero.1 hc, ?_⟩
  split
  · next hpc =>
    unfold Server.step
    rw [hpc]
    simp only [Server.tryReconnect, hp]
    simp
  · trivial

/-- **C90, from builders**: the configuration of a server builder.  Without `Decorator` and `Inclusive`, its
text is read back and it serves a container of the capacity of the one the builder makes; with one, at any
depth, it is refused, and building the server panics. -/
theorem C90_from_builder (w : World) (P : (V : Type) → Params K V) (clock : Nat → Nat) (a : String) (b : Bld)
    (hs : ¬ Large b) (hpop : Populated b) (hr : Resolves w b) (ho : ∀ f, w.opens f = true)
    (ha : w.resolves a = true) :
    ∃ c, b.serverConfig a = .ok c ∧
      (Plain b → fromString w "SocketServerConfig" c.write = .ok c ∧
        ∀ m, b.make P clock V = .ok m → ∃ x, c.serve w (P V) = .ok (a, x) ∧ x.capacity = m.capacity) ∧
      (¬ Plain b → (∀ c', fromString w "SocketServerConfig" c.write ≠ .ok c') ∧ c.serve w (P V) = .panic) := by
  obtain ⟨c, e1, e2, e3⟩ := (asConfig_spec b).1 hs
  refine ⟨.server "SocketServerConfig" a b.toml, ?_, fun hp => ⟨?_, fun m hm => ?_⟩, fun hp => ⟨fun c' h => ?_, ?_⟩⟩
  · show (b.asConfig >>= fun c => reparse c >>= fun t => pure (Conf.server "SocketServerConfig" a t)) = _
    rw [e1]
    show (reparse c >>= fun t => pure (Conf.server "SocketServerConfig" a t)) = _
    unfold reparse
    rw [e2, e3]; rfl
  · obtain ⟨g, hg⟩ := (C45_accepts_iff w _).2 ((toml_valid w b hpop).2 ⟨hp, hr⟩)
    refine fromString_ok.2 ⟨_, rfl, ?_, read_server.2 ⟨_, _, _, rfl, rfl, rfl, ha, ⟨g, hg⟩, rfl⟩⟩
    simp [smallFields, Toml.small, e3]
  · obtain ⟨x, hx, hc⟩ := plain_builds hp hpop hr ho hm
    refine ⟨x, ?_, hc⟩
    show (buildNested w (P V) b.toml >>= fun x => pure (a, x)) = _
    rw [hx]; rfl
  · obtain ⟨t, ht, -, h⟩ := fromString_ok.1 h
    cases ht
    obtain ⟨_, _, v, -, -, h3, -, hg, -⟩ := read_server.1 h
    cases h3
    exact hp ((toml_valid w b hpop).1 ((C45_accepts_iff w _).1 hg)).1
  · show (buildNested w (P V) b.toml >>= fun x => pure (a, x)) = _
    rw [plain_not_built hp hpop]; rfl

/-- The hypotheses of C90 are met by the configuration of the documentation (src/socket/config.rs). -/
theorem C90_example : ∃ c b, fromString anyWorld "SocketServerConfig" (.table [("id", .str "SocketServerConfig"),
      ("address", .str "localhost:6382"), ("container", arrayToml 3)]) = .ok c ∧
    c = .server "SocketServerConfig" "localhost:6382" (arrayToml 3) ∧ Available anyWorld natParams (arrayToml 3) ∧
    c.serve anyWorld natParams = .ok ("localhost:6382", b) ∧ b.capacity = 3 ∧
    OnlyArrays (arrayToml 3) ∧ NoEmptyAssociative (arrayToml 3) ∧ No "AssociativeConfig" (arrayToml 3) := by
  obtain ⟨g, hg⟩ := (C45_accepts_iff anyWorld (arrayToml 3)).2 (arrayToml_valid _ _)
  have ha : Available anyWorld natParams (arrayToml 3) := arrayToml_available _ _ _
  obtain ⟨b, hb, hn⟩ := C45_config_builds _ natParams hg ha
  have no : ∀ id, "ArrayConfig" ≠ id → No id (arrayToml 3) := fun id h =>
    (no_iff (w := anyWorld) rfl (parse_iff.2 (.array rfl))).2 ⟨h, by simp [Cfg.children]⟩
  refine ⟨_, b, fromString_ok.2 ⟨_, rfl, by decide, read_server.2 ⟨_, _, _, rfl, rfl, rfl, rfl, ⟨g, hg⟩, rfl⟩⟩, rfl, ha,
    ?_, (hn 3).1 (.leaf ⟨rfl, rfl⟩ (by simp) rfl), ?_, ?_, no _ (by decide)⟩
  · show (buildNested anyWorld natParams (arrayToml 3) >>= fun x => pure ("localhost:6382", x)) = _
    rw [buildNested_ok.2 ⟨⟨g, hg⟩, fromToml_toml hg ▸ hb⟩]; rfl
  · intro id hid
    refine no id ?_
    rintro rfl
    simp at hid
  · intro c t hc hi
    exact absurd hi (no "AssociativeConfig" (by decide) c t hc)

end Byoc.ConfigTextProps
