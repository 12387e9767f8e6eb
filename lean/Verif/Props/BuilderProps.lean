import Verif.Model.Builders
import Verif.Props.ConfigProps
import Mathlib.Order.Extension.Linear

/-! # C60, C62: from builders to configurations, and the decorator of a configuration -/

namespace Byoc
namespace BuilderProps

open Config ConfigProps List

variable {K V : Type} [LinearOrder K]

/-! ## Specification -/

/-- Neither a `Decorator` nor an `Inclusive`, at any depth; no `Associative` without sets. -/
def Plain : Bld → Prop
  | .exclusive f b => Plain f ∧ Plain b
  | .inclusive _ _ => False
  | .flushStopper c => Plain c
  | .profiler c => Plain c
  | .sequential c => Plain c
  | .associative n c => 0 < n ∧ Plain c
  | .decorator _ _ => False
  | _ => True

/-- The addresses of its socket clients resolve. -/
def Resolves (w : World) : Bld → Prop
  | .client a => w.resolves a = true
  | .exclusive f b => Resolves w f ∧ Resolves w b
  | .inclusive f b => Resolves w f ∧ Resolves w b
  | .flushStopper c => Resolves w c
  | .profiler c => Resolves w c
  | .sequential c => Resolves w c
  | .associative _ c => Resolves w c
  | .decorator _ c => Resolves w c
  | _ => True

/-- Every `Associative` has sets. -/
def Populated : Bld → Prop
  | .exclusive f b => Populated f ∧ Populated b
  | .inclusive f b => Populated f ∧ Populated b
  | .flushStopper c => Populated c
  | .profiler c => Populated c
  | .sequential c => Populated c
  | .associative n c => 0 < n ∧ Populated c
  | .decorator _ c => Populated c
  | _ => True

/-- Parameters for each of the decorated types. -/
def dparams (P : (V : Type) → Params K V) (clock : Nat → Nat) (V : Type) : DParams K V where
  plain := P V
  clock := clock
  fifo := P _
  lru := P _
  lrfu := P _

/-- **C60, full statement.** The configuration of a builder (with sets in its `Associative`, whose
addresses resolve, all files can be opened) is accepted; and, if the builder can build, then the
configuration builds too, a container of the same capacity.  False of the code, see `C60_false`. -/
def C60_full : Prop := ∀ (K V : Type) (_ : LinearOrder K) (w : World) (P : (V : Type) → Params K V)
  (clock : Nat → Nat) (b : Bld), Populated b → Resolves w b → (∀ f, w.opens f = true) →
  ∃ g, builderFromToml w b.toml = .ok g ∧ ∀ m, b.make P clock V = .ok m →
    ∃ x, builderBuild w (dparams P clock V) g = .ok x ∧ x.capacity = m.capacity

/-! ## Proofs -/

theorem valid_iff {w : World} {t : Fields} {id : String} {cfg : Cfg}
    (hid : t.lookup "id" = some (.str id)) (hp : parse w id t = .ok cfg) :
    Valid w (.table t) ↔ ∀ x ∈ cfg.children, Valid w x := by
  simp only [← C45_accepts_iff]
  constructor
  · rintro ⟨g, hg⟩ x hx
    obtain ⟨t', id', cfg', gs, ht, hid', hp', hgs, -⟩ := fromToml_iff.1 hg
    cases ht
    rw [hid] at hid'; cases hid'
    rw [hp] at hp'; cases hp'
    exact forall2_mem hgs x hx
  · intro h
    obtain ⟨gs, hgs⟩ := forall2_exists h
    exact ⟨_, fromToml_iff.2 ⟨t, id, cfg, gs, rfl, hid, hp, hgs, rfl⟩⟩

theorem not_valid {w : World} {t : Fields} {id : String} {e : CfgErr}
    (hid : t.lookup "id" = some (.str id)) (hp : parse w id t = .error e) : ¬ Valid w (.table t) := by
  rw [← C45_accepts_iff]
  rintro ⟨g, hg⟩
  obtain ⟨t', id', cfg', gs, ht, hid', hp', hgs, -⟩ := fromToml_iff.1 hg
  cases ht
  rw [hid] at hid'; cases hid'
  rw [hp] at hp'; cases hp'

theorem toml_valid (w : World) (b : Bld) : Populated b → (Valid w b.toml ↔ Plain b ∧ Resolves w b) := by
  induction b with
  | array n =>
    intro _
    refine (valid_iff rfl (parse_iff.2 (.array rfl))).trans ?_
    simp [Plain, Resolves, Cfg.children]
  | btree n =>
    intro _
    refine (valid_iff rfl (parse_iff.2 (.btree rfl))).trans ?_
    simp [Plain, Resolves, Cfg.children]
  | stream n =>
    intro _
    refine (valid_iff rfl (parse_iff.2 (.stream rfl))).trans ?_
    simp [Plain, Resolves, Cfg.children]
  | compressed f n =>
    intro _
    cases f with
    | none =>
      refine (valid_iff rfl (parse_iff.2 (.compressed (f := none) rfl rfl))).trans ?_
      simp [Plain, Resolves, Cfg.children]
    | some f =>
      refine (valid_iff rfl (parse_iff.2 (.compressed (f := some f) rfl rfl))).trans ?_
      simp [Plain, Resolves, Cfg.children]
  | client a =>
    intro _
    by_cases h : w.resolves a = true
    · refine (valid_iff rfl (parse_iff.2 (.socketClient rfl h))).trans ?_
      simp [Plain, Resolves, Cfg.children, h]
    · simp only [Plain, Resolves, h, and_false, iff_false, Bld.toml, Bool.false_eq_true]
      refine not_valid (e := .format) rfl ?_
      simp only [parse, string, List.lookup]
      simp [orErr, bind, Except.bind, h]
  | exclusive f b ihf ihb =>
    intro h
    refine (valid_iff rfl (parse_iff.2 (.exclusive rfl rfl))).trans ?_
    simp only [Plain, Resolves, Cfg.children, List.mem_cons, List.not_mem_nil, or_false, forall_eq_or_imp,
      forall_eq, ihf h.1, ihb h.2]
    tauto
  | inclusive f b =>
    intro _
    simp only [Plain, false_and, iff_false, Bld.toml]
    exact not_valid (e := .format) rfl (by simp [parse])
  | decorator d b =>
    intro _
    simp only [Plain, false_and, iff_false, Bld.toml]
    exact not_valid (e := .format) rfl (by simp [parse])
  | flushStopper c ih =>
    intro h
    refine (valid_iff rfl (parse_iff.2 (.flushStopper rfl))).trans ?_
    simpa [Plain, Resolves, Cfg.children] using ih h
  | profiler c ih =>
    intro h
    refine (valid_iff rfl (parse_iff.2 (.profiler rfl))).trans ?_
    simpa [Plain, Resolves, Cfg.children] using ih h
  | sequential c ih =>
    intro h
    refine (valid_iff rfl (parse_iff.2 (.sequential rfl))).trans ?_
    simpa [Plain, Resolves, Cfg.children] using ih h
  | associative n c ih =>
    intro h
    refine (valid_iff rfl (parse_iff.2 (.associative rfl))).trans ?_
    have hn := h.1
    simp [Plain, Resolves, Cfg.children, ih h.2, hn, hn.ne']

theorem toml_decoratorOf (b : Bld) (h : Plain b) : ∃ t, b.toml = .table t ∧ decoratorOf t = .ok .none := by
  cases b with
  | compressed f n => cases f <;> exact ⟨_, rfl, rfl⟩
  | inclusive => exact h.elim
  | decorator => exact h.elim
  | _ => exact ⟨_, rfl, rfl⟩

theorem toml_table (b : Bld) : ∃ t, b.toml = .table t := by
  cases b with
  | compressed f n => cases f <;> exact ⟨_, rfl⟩
  | _ => exact ⟨_, rfl⟩

/-- **C60 (accepted exactly).** The configuration of a builder is accepted by `ConfigBuilder` iff it
contains neither a `Decorator` nor an `Inclusive`, at any depth. -/
theorem C60_accepted_iff (w : World) (b : Bld) (hp : Populated b) (hr : Resolves w b) :
    (∃ g, builderFromToml w b.toml = .ok g) ↔ Plain b := by
  have hv : Plain b ↔ ∃ g, fromToml w b.toml = .ok g := by
    rw [C45_accepts_iff, toml_valid w b hp]
    exact ⟨fun h => ⟨h, hr⟩, fun h => h.1⟩
  obtain ⟨t, ht⟩ := toml_table b
  constructor
  · rintro ⟨g, hg⟩
    rw [hv]
    simp only [builderFromToml, ht, bind, Except.bind, pure, Except.pure] at hg ⊢
    split at hg
    · cases hg
    · split at hg
      · cases hg
      · next c hc => exact ⟨c, hc⟩
  · intro h
    obtain ⟨g, hg⟩ := hv.1 h
    obtain ⟨t', ht', hd⟩ := toml_decoratorOf b h
    rw [ht] at ht'; cases ht'
    exact ⟨⟨g, .none⟩, by
      rw [ht] at hg
      simp only [builderFromToml, ht, hd, bind, Except.bind, pure, Except.pure]
      rw [hg]⟩

theorem toml_available {w : World} {P : (V : Type) → Params K V} {clock : Nat → Nat} (ho : ∀ f, w.opens f = true) (b : Bld) :
    Plain b → Resolves w b → ∀ m, b.make P clock V = .ok m →
    Available w (P V) b.toml ∧ Announces (remoteCapacity (P V)) b.toml m.capacity := by
  induction b with
  | array n =>
    rintro _ _ _ ⟨⟩
    exact ⟨(available_iff rfl (parse_iff.2 (.array rfl))).2 ⟨trivial, by simp [Cfg.children]⟩,
      .leaf ⟨rfl, rfl⟩ (by simp) rfl⟩
  | btree n =>
    rintro _ _ _ ⟨⟩
    exact ⟨(available_iff rfl (parse_iff.2 (.btree rfl))).2 ⟨trivial, by simp [Cfg.children]⟩,
      .leaf ⟨rfl, rfl⟩ (by simp) rfl⟩
  | stream n =>
    rintro _ _ _ ⟨⟩
    exact ⟨(available_iff rfl (parse_iff.2 (.stream rfl))).2 ⟨trivial, by simp [Cfg.children]⟩,
      .leaf ⟨rfl, rfl⟩ (by simp) rfl⟩
  | compressed f n =>
    cases f with
    | none => rintro _ _ _ ⟨⟩; exact ⟨(available_iff rfl (parse_iff.2 (.compressed (f := none) rfl rfl))).2 ⟨fun s _ => ho s, by simp [Cfg.children]⟩,
      .leaf ⟨rfl, rfl⟩ (by simp) rfl⟩
    | some f => rintro _ _ _ ⟨⟩; exact ⟨(available_iff rfl (parse_iff.2 (.compressed (f := some f) rfl rfl))).2 ⟨fun s _ => ho s, by simp [Cfg.children]⟩,
      .leaf ⟨rfl, rfl⟩ (by simp) rfl⟩
  | client a =>
    intro _ hr m hm
    simp only [Bld.make] at hm
    split at hm
    · next r hr' =>
      cases hm
      exact ⟨(available_iff rfl (parse_iff.2 (.socketClient rfl hr))).2 ⟨by simp [Here, hr'], by simp [Cfg.children]⟩,
        .client ⟨rfl, rfl⟩ rfl (by simp only [remoteCapacity, hr']; rfl)⟩
    · cases hm
  | exclusive f b ihf ihb =>
    intro hp hr m hm
    simp only [Bld.make] at hm
    split at hm
    · next f' b' hf hb =>
      cases hm
      obtain ⟨f1, f2⟩ := ihf hp.1 hr.1 _ hf
      obtain ⟨b1, b2⟩ := ihb hp.2 hr.2 _ hb
      exact ⟨(available_iff rfl (parse_iff.2 (.exclusive rfl rfl))).2 ⟨trivial, by simpa [Cfg.children] using ⟨f1, b1⟩⟩,
        .exclusive ⟨rfl, rfl⟩ rfl rfl f2 b2⟩
    · cases hm
  | inclusive => intro h; exact h.elim
  | decorator => intro h; exact h.elim
  | flushStopper c ih =>
    intro hp hr m hm
    simp only [Bld.make] at hm
    split at hm
    · next c' hc =>
      cases hm
      obtain ⟨c1, c2⟩ := ih hp hr _ hc
      exact ⟨(available_iff rfl (parse_iff.2 (.flushStopper rfl))).2 ⟨trivial, by simpa [Cfg.children] using c1⟩,
        .wrapper ⟨rfl, rfl⟩ (by simp [wrappers]) rfl c2⟩
    · cases hm
  | profiler c ih =>
    intro hp hr m hm
    simp only [Bld.make] at hm
    split at hm
    · next c' hc =>
      cases hm
      obtain ⟨c1, c2⟩ := ih hp hr _ hc
      exact ⟨(available_iff rfl (parse_iff.2 (.profiler rfl))).2 ⟨trivial, by simpa [Cfg.children] using c1⟩,
        .wrapper ⟨rfl, rfl⟩ (by simp [wrappers]) rfl c2⟩
    · cases hm
  | sequential c ih =>
    intro hp hr m hm
    simp only [Bld.make] at hm
    split at hm
    · next c' hc =>
      cases hm
      obtain ⟨c1, c2⟩ := ih hp hr _ hc
      exact ⟨(available_iff rfl (parse_iff.2 (.sequential rfl))).2 ⟨trivial, by simpa [Cfg.children] using c1⟩,
        .wrapper ⟨rfl, rfl⟩ (by simp [wrappers]) rfl c2⟩
    · cases hm
  | associative n c ih =>
    intro hp hr m hm
    simp only [Bld.make] at hm
    split at hm
    · next c' hc =>
      cases hm
      obtain ⟨c1, c2⟩ := ih hp.2 hr _ hc
      refine ⟨(available_iff rfl (parse_iff.2 (.associative rfl))).2 ⟨trivial, ?_⟩, .group ⟨rfl, rfl⟩ (by simp [groups]) rfl ?_⟩
      · intro x hx
        rw [List.eq_of_mem_replicate hx]
        exact c1
      · have key : ∀ n, AnnouncesAll (remoteCapacity (P V)) (List.replicate n c.toml)
            ((List.replicate n c'.2).map c'.1.capacity).sum := by
          intro n
          induction n with
          | zero => exact .nil
          | succ n ih => exact .cons c2 ih
        exact key n
    · cases hm

/-- **C60, proved part.** Without `Decorator` and `Inclusive`: the configuration of a builder is
accepted, and if the builder can build then the configuration builds a container of the same
capacity. -/
theorem C60_partial (w : World) (P : (V : Type) → Params K V) (clock : Nat → Nat) (b : Bld)
    (hp : Plain b) (hpop : Populated b) (hr : Resolves w b) (ho : ∀ f, w.opens f = true) :
    ∃ g, builderFromToml w b.toml = .ok g ∧ ∀ m, b.make P clock V = .ok m →
      ∃ x, builderBuild w (dparams P clock V) g = .ok x ∧ x.capacity = m.capacity := by
  obtain ⟨g, hg⟩ := (C60_accepted_iff w b hpop hr).2 hp
  refine ⟨g, hg, fun m hm => ?_⟩
  obtain ⟨ha, hn⟩ := toml_available ho b hp hr m hm
  obtain ⟨t, ht, hd⟩ := toml_decoratorOf b hp
  rw [ht] at hg
  simp only [builderFromToml, hd, bind, Except.bind, pure, Except.pure] at hg
  split at hg
  · cases hg
  · next c hc =>
    cases hg
    rw [← ht] at hc
    obtain ⟨x, hx, hcap⟩ := C45_config_builds w (P V) hc ha
    exact ⟨x, hx, (hcap _).1 hn⟩

/-- **C60, the other side.** Nested in an accepted kind of container, the configuration of a builder
with a `Decorator` or an `Inclusive` is refused, and building it panics. -/
theorem C60_nested_panics (w : World) (P : Params K V) (b : Bld) (hp : ¬ Plain b) (hpop : Populated b) :
    (∀ g, fromToml w (Bld.sequential b).toml ≠ .ok g) ∧ build w P (Bld.sequential b).toml = .panic := by
  have hv : ¬ ∃ g, fromToml w b.toml = .ok g := by
    rw [C45_accepts_iff, toml_valid w b hpop]
    exact fun h => hp h.1
  constructor
  · intro g hg
    have := (C45_accepts_iff w _).1 ⟨g, hg⟩
    rw [toml_valid w (.sequential b) hpop] at this
    exact hp this.1
  · cases h : build w P (Bld.sequential b).toml with
    | panic => rfl
    | ok x =>
      obtain ⟨t, id, cfg, gs, bs, ht, hid, hp', hgs, hbs, ha⟩ := build_iff.1 h
      cases ht
      cases hid
      obtain ⟨l, rfl, hl⟩ := (parse_iff.1 hp').sequential_inv
      cases hl
      cases hgs with
      | cons h' _ => exact absurd ⟨_, h'⟩ hv

/-- Parameters for every value type: nothing can be serialized, elements in the order given. -/
noncomputable def anyParams (V : Type) : Params Nat V where
  srt := ⟨id, fun _ => List.Perm.refl _⟩
  srtS := ⟨id, fun _ => List.Perm.refl _⟩
  srtU := ⟨id, fun _ => List.Perm.refl _⟩
  ord :=
    let _ : PartialOrder V :=
      { le := (· = ·), le_refl := fun _ => rfl, le_trans := fun _ _ _ h => h.trans
        le_antisymm := fun _ _ h _ => h }
    inferInstanceAs (LinearOrder (LinearExtension V))
  codec := ⟨fun _ => none, fun _ => none, by simp⟩
  vecCodec := ⟨fun _ => none, fun _ => none⟩
  lz4 := CompressedProps.noComp
  hash := id
  remote := fun _ => none

/-- The builder of the documentation (src/builder/mod.rs): a policy on an exclusive hierarchy, made
sequential. -/
def docBuilder : Bld :=
  .sequential (.decorator .lru (.exclusive (.array 10000) (.array 1000000)))

/-- **C60 is false of the code.** -/
theorem C60_false : ¬ C60_full := by
  intro h
  obtain ⟨g, hg, -⟩ := h Nat Nat inferInstance anyWorld anyParams id docBuilder ⟨trivial, trivial⟩ ⟨trivial, trivial⟩ fun _ => rfl
  have := (C60_accepted_iff anyWorld docBuilder ⟨trivial, trivial⟩ ⟨trivial, trivial⟩).1 ⟨g, hg⟩
  exact this

/-- A builder of three levels meets the hypotheses of `C60_partial`, and it builds. -/
theorem C60_example : ∃ (b : Bld) (m : Bld.Made Nat Nat), Plain b ∧ Populated b ∧ Resolves anyWorld b ∧
    b.make anyParams id Nat = .ok m ∧ m.capacity = 8 :=
  ⟨.sequential (.exclusive (.array 2) (.associative 2 (.array 3))), _,
    ⟨trivial, by decide, trivial⟩, ⟨trivial, by decide, trivial⟩, ⟨trivial, trivial⟩, rfl, rfl⟩

/-! ## C78: what builders build -/

/-- The capacity of what a builder builds, if it builds, `remote` being the capacities of the containers
behind socket addresses: the front level of an `Inclusive` must not be larger than its back level. -/
def capacityOf (remote : String → Option Nat) : Bld → Option Nat
  | .array n => some n
  | .btree n => some n
  | .stream n => some n
  | .compressed _ n => some n
  | .client a => remote a
  | .exclusive f b =>
    match capacityOf remote f, capacityOf remote b with
    | some f, some b => some (f + b)
    | _, _ => none
  | .inclusive f b =>
    match capacityOf remote f, capacityOf remote b with
    | some f, some b => if f ≤ b then some b else none
    | _, _ => none
  | .associative n c => (capacityOf remote c).map (n * ·)
  | .flushStopper c => capacityOf remote c
  | .profiler c => capacityOf remote c
  | .sequential c => capacityOf remote c
  | .decorator _ c => capacityOf remote c

/-- **C78.** `build()` succeeds exactly when every server can be reached and no `Inclusive` has a front
level larger than its back level (otherwise it panics); the capacity of the container is then the one
that can be read on the builder. -/
theorem C78_build (P : (V : Type) → Params K V) (clock : Nat → Nat) (remote : String → Option Nat)
    (hr : ∀ V a, (match (P V).remote a with | some r => some (Bld.Made.capacity r) | none => none) = remote a)
    (b : Bld) : ∀ (V : Type),
    match b.make P clock V, capacityOf remote b with
    | .ok m, some n => m.capacity = n
    | .panic, none => True
    | _, _ => False := by
  induction b with
  | array n => intro V; rfl
  | btree n => intro V; rfl
  | stream n => intro V; rfl
  | compressed f n => intro V; cases f <;> rfl
  | client a =>
    intro V
    have h := hr V a
    simp only [Bld.make, capacityOf]
    cases hq : (P V).remote a with
    | none => rw [hq] at h; rw [← h]; trivial
    | some r => rw [hq] at h; rw [← h]
  | exclusive f b ihf ihb =>
    intro V
    have h1 := ihf V
    have h2 := ihb V
    simp only [Bld.make, capacityOf]
    cases hf : f.make P clock V <;> cases hb : b.make P clock V <;>
      cases cf : capacityOf remote f <;> cases cb : capacityOf remote b <;>
      simp only [hf, hb, cf, cb] at h1 h2 ⊢
    rw [← h1, ← h2]
    rfl
  | inclusive f b ihf ihb =>
    intro V
    have h1 := ihf (InclCell V)
    have h2 := ihb (InclCell V)
    simp only [Bld.make, capacityOf]
    cases hf : f.make P clock (InclCell V) <;> cases hb : b.make P clock (InclCell V) <;>
      cases cf : capacityOf remote f <;> cases cb : capacityOf remote b <;>
      simp only [hf, hb, cf, cb] at h1 h2 ⊢
    rename_i mf mb nf nb
    simp only [Bld.Made.capacity] at h1 h2
    subst h1 h2
    by_cases hle : mf.1.capacity mf.2 ≤ mb.1.capacity mb.2
    · simp only [inclusiveNew, if_pos hle]
      rfl
    · simp only [inclusiveNew, if_neg hle]
  | associative n c ih =>
    intro V
    have h1 := ih V
    simp only [Bld.make, capacityOf]
    cases hf : c.make P clock V <;> cases cf : capacityOf remote c <;> simp only [hf, cf] at h1 ⊢
    · rename_i m k
      simp only [Bld.Made.capacity, associative, List.map_replicate, Option.map_some] at h1 ⊢
      rw [← h1]; simp
    · simp
  | flushStopper c ih =>
    intro V
    have h1 := ih V
    simp only [Bld.make, capacityOf]
    cases hf : c.make P clock V <;> cases cf : capacityOf remote c <;> simp only [hf, cf] at h1 ⊢
    exact h1
  | profiler c ih =>
    intro V
    have h1 := ih V
    simp only [Bld.make, capacityOf]
    cases hf : c.make P clock V <;> cases cf : capacityOf remote c <;> simp only [hf, cf] at h1 ⊢
    exact h1
  | sequential c ih =>
    intro V
    have h1 := ih V
    simp only [Bld.make, capacityOf]
    cases hf : c.make P clock V <;> cases cf : capacityOf remote c <;> simp only [hf, cf] at h1 ⊢
    exact h1
  | decorator d c ih =>
    intro V
    cases d with
    | none => exact ih V
    | fifo =>
      have h1 := ih (fifo V).Item
      simp only [Bld.make, capacityOf]
      cases hf : c.make P clock (fifo V).Item <;> cases cf : capacityOf remote c <;>
        simp only [hf, cf] at h1 ⊢
      exact h1
    | lru =>
      have h1 := ih (lru V clock).Item
      simp only [Bld.make, capacityOf]
      cases hf : c.make P clock (lru V clock).Item <;> cases cf : capacityOf remote c <;>
        simp only [hf, cf] at h1 ⊢
      exact h1
    | lrfu e =>
      have h1 := ih (LrfuCell V)
      simp only [Bld.make, capacityOf]
      cases hf : c.make P clock (LrfuCell V) <;> cases cf : capacityOf remote c <;>
        simp only [hf, cf] at h1 ⊢
      exact h1

/-- An `Inclusive` of capacities 10 and 5 is refused, one of capacities 5 and 2 × 10 is built. -/
theorem C78_witness : capacityOf (fun _ => none) (.inclusive (.array 10) (.array 5)) = none ∧
    capacityOf (fun _ => none) (.inclusive (.array 5) (.associative 2 (.array 10))) = some 20 ∧
    (Bld.inclusive (.array 10) (.array 5)).make (K := Nat) anyParams id Nat = .panic :=
  ⟨rfl, rfl, rfl⟩

/-! ## C62: the exponent of `Lrfu` -/

/-- **C62, full statement.** `decorator.kind='Lrfu'` with `decorator.exponent=q` in a valid
configuration gives an `Lrfu` of exponent `q`.  False of the code, see `C62_false`. -/
def C62_full : Prop := ∀ (w : World) (t d : Fields) (q : ℚ), Valid w (.table t) →
  t.lookup "decorator" = some (.table d) → d.lookup "kind" = some (.str "Lrfu") →
  d.lookup "exponent" = some (.float q) → t.lookup "decorator.Lrfu.exponent" = none →
  ∃ b, builderFromToml w (.table t) = .ok b ∧ b.decorator = .lrfu q

/-- **C62, proved part.** The decorator kind is honoured; the exponent is always 1, whatever the
configuration says. -/
theorem C62_partial (w : World) (t d : Fields) (hv : Valid w (.table t))
    (hd : t.lookup "decorator" = some (.table d)) (hq : t.lookup "decorator.Lrfu.exponent" = none) :
    (d.lookup "kind" = some (.str "Fifo") → ∃ b, builderFromToml w (.table t) = .ok b ∧ b.decorator = .fifo) ∧
    (d.lookup "kind" = some (.str "Lru") → ∃ b, builderFromToml w (.table t) = .ok b ∧ b.decorator = .lru) ∧
    (d.lookup "kind" = some (.str "Lrfu") → ∃ b, builderFromToml w (.table t) = .ok b ∧ b.decorator = .lrfu 1) := by
  obtain ⟨g, hg⟩ := (C45_accepts_iff w _).2 hv
  refine ⟨fun h => ⟨⟨g, .fifo⟩, ?_, rfl⟩, fun h => ⟨⟨g, .lru⟩, ?_, rfl⟩, fun h => ⟨⟨g, .lrfu 1⟩, ?_, rfl⟩⟩ <;>
  simp only [builderFromToml, decoratorOf, hd, h, hq, hg, bind, Except.bind, pure, Except.pure]

/-- **C62 is false of the code.** -/
theorem C62_false : ¬ C62_full := by
  intro h
  obtain ⟨b, hb, hl⟩ := h anyWorld
    [("id", .str "ArrayConfig"), ("capacity", .int 10),
      ("decorator", .table [("kind", .str "Lrfu"), ("exponent", .float (1 / 2))])]
    _ (1 / 2) (.leaf (n := 10) ⟨rfl, rfl⟩ (by simp) rfl) rfl rfl rfl rfl
  obtain ⟨b', hb', hl'⟩ := (C62_partial anyWorld
    [("id", .str "ArrayConfig"), ("capacity", .int 10),
      ("decorator", .table [("kind", .str "Lrfu"), ("exponent", .float (1 / 2))])]
    _ (.leaf (n := 10) ⟨rfl, rfl⟩ (by simp) rfl) rfl rfl).2.2 rfl
  rw [hb] at hb'
  cases hb'
  rw [hl] at hl'
  exact absurd (Decor.lrfu.inj hl') (by decide +kernel)

end BuilderProps
end Byoc
