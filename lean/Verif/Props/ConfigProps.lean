import Verif.Proofs.Config
import Verif.Proofs.ConfigGood
import Verif.Props.StackProps
import Verif.Props.StreamProps
import Verif.Props.CompressedProps

/-! # C45, C46, C60 – C62: configurations -/

namespace Byoc
namespace ConfigProps

open Config List

variable {K V : Type} [LinearOrder K]

/-! ## Specification -/

/-- `v` is a table with the given `id`. -/
def IsA (v : Toml) (id : String) (t : Fields) : Prop := v = .table t ∧ t.lookup "id" = some (.str id)

/-- The configurations that nest one configuration, or a list of them. -/
def wrappers : List String := ["FlushStopperConfig", "ProfilerConfig", "SequentialConfig"]
def groups : List String := ["AssociativeConfig", "BatchConfig"]

/-- The documented format (src/config/config_builder.rs 24-31 and the documentation of each
configuration). -/
inductive Valid (w : World) : Toml → Prop
  | leaf {v t id} {n : Nat} : IsA v id t → id ∈ ["ArrayConfig", "BTreeConfig", "StreamConfig"] →
      t.lookup "capacity" = some (.int n) → Valid w v
  | compressed {v t} {n : Nat} : IsA v "CompressedConfig" t → t.lookup "capacity" = some (.int n) →
      (t.lookup "filename" = none ∨ ∃ s, t.lookup "filename" = some (.str s)) → Valid w v
  | client {v t a} : IsA v "SocketClientConfig" t → t.lookup "address" = some (.str a) →
      w.resolves a = true → Valid w v
  | exclusive {v t f b} : IsA v "ExclusiveConfig" t → t.lookup "front" = some f →
      t.lookup "back" = some b → Valid w f → Valid w b → Valid w v
  | group {v t id l} : IsA v id t → id ∈ groups → t.lookup "container" = some (.arr l) →
      (∀ c ∈ l, Valid w c) → Valid w v
  | wrapper {v t id c} : IsA v id t → id ∈ wrappers → t.lookup "container" = some c →
      Valid w c → Valid w v

/-- `c` is `v` or a configuration nested in `v`, at any depth. -/
inductive Within (c : Toml) : Toml → Prop
  | self : Within c c
  | front {v t f} : IsA v "ExclusiveConfig" t → t.lookup "front" = some f → Within c f → Within c v
  | back {v t b} : IsA v "ExclusiveConfig" t → t.lookup "back" = some b → Within c b → Within c v
  | group {v t id l x} : IsA v id t → id ∈ groups → t.lookup "container" = some (.arr l) → x ∈ l →
      Within c x → Within c v
  | wrapper {v t id x} : IsA v id t → id ∈ wrappers → t.lookup "container" = some x →
      Within c x → Within c v

mutual
/-- The capacity announced: the one written in the leaves, added up by `Exclusive`, `Associative` and
`Batch`, passed on by the wrappers; `cap a` is the capacity of the container served at address `a`. -/
inductive Announces (cap : String → Option Nat) : Toml → Nat → Prop
  | leaf {v t id} {n : Nat} : IsA v id t →
      id ∈ ["ArrayConfig", "BTreeConfig", "StreamConfig", "CompressedConfig"] →
      t.lookup "capacity" = some (.int n) → Announces cap v n
  | client {v t a n} : IsA v "SocketClientConfig" t → t.lookup "address" = some (.str a) →
      cap a = some n → Announces cap v n
  | exclusive {v t f b m n} : IsA v "ExclusiveConfig" t → t.lookup "front" = some f →
      t.lookup "back" = some b → Announces cap f m → Announces cap b n → Announces cap v (m + n)
  | group {v t id l n} : IsA v id t → id ∈ groups → t.lookup "container" = some (.arr l) →
      AnnouncesAll cap l n → Announces cap v n
  | wrapper {v t id c n} : IsA v id t → id ∈ wrappers → t.lookup "container" = some c →
      Announces cap c n → Announces cap v n
/-- The sum over a list. -/
inductive AnnouncesAll (cap : String → Option Nat) : List Toml → Nat → Prop
  | nil : AnnouncesAll cap [] 0
  | cons {c l m n} : Announces cap c m → AnnouncesAll cap l n → AnnouncesAll cap (c :: l) (m + n)
end

/-- Everything named outside the configuration is there: files can be opened, servers answer. -/
def Available (w : World) (P : Params K V) (v : Toml) : Prop :=
  ∀ c t, Within c v →
    (∀ f, IsA c "CompressedConfig" t → t.lookup "filename" = some (.str f) → w.opens f = true) ∧
    (∀ a, IsA c "SocketClientConfig" t → t.lookup "address" = some (.str a) → P.remote a ≠ none)

/-- The capacity of the container served at an address. -/
def remoteCapacity (P : Params K V) (a : String) : Option Nat :=
  (P.remote a).map fun r => r.1.capacity r.2

/-! ## C45 -/

theorem isA_table {t : Fields} {id : String} (h : t.lookup "id" = some (.str id)) :
    IsA (.table t) id t := ⟨rfl, h⟩

/-- **C45 (accepted exactly).** `GenericConfig::from_toml` accepts a configuration iff it follows the
format, at every level. -/
theorem C45_accepts_iff (w : World) (v : Toml) : (∃ g, fromToml w v = .ok g) ↔ Valid w v := by
  constructor
  · refine nested_induction (w := w) (motive := fun v => (∃ g, fromToml w v = .ok g) → Valid w v) ?_ v
    intro v ih
    rintro ⟨g, hg⟩
    obtain ⟨t, id, cfg, gs, rfl, hid, hp, hgs, -⟩ := fromToml_iff.1 hg
    have hv : ∀ c ∈ cfg.children, Valid w c := by
      intro c hc
      refine ih t id cfg rfl hp c hc ?_
      clear ih hp hg
      generalize hcs : cfg.children = cs at hgs hc
      clear hcs
      induction hgs with
      | nil => cases hc
      | @cons a b _ _ h _ ih =>
        rcases List.mem_cons.1 hc with rfl | hc
        · exact ⟨b, h⟩
        · exact ih hc
    have hi := isA_table hid
    cases parse_iff.1 hp with
    | array h => exact .leaf hi (by simp) h
    | btree h => exact .leaf hi (by simp) h
    | stream h => exact .leaf hi (by simp) h
    | @compressed _ f h h2 => exact .compressed hi h (by cases f <;> simp [h2])
    | associative h => exact .group hi (by simp [groups]) h hv
    | batch h => exact .group hi (by simp [groups]) h hv
    | exclusive h h2 => exact .exclusive hi h h2 (hv _ (by simp [Cfg.children])) (hv _ (by simp [Cfg.children]))
    | flushStopper h => exact .wrapper hi (by simp [wrappers]) h (hv _ (by simp [Cfg.children]))
    | profiler h => exact .wrapper hi (by simp [wrappers]) h (hv _ (by simp [Cfg.children]))
    | sequential h => exact .wrapper hi (by simp [wrappers]) h (hv _ (by simp [Cfg.children]))
    | socketClient h h2 => exact .client hi h h2
  · intro h
    have key : ∀ {t id cfg}, t.lookup "id" = some (.str id) → Parsed w t id cfg →
        (∀ c ∈ cfg.children, ∃ g, fromToml w c = .ok g) → ∃ g, fromToml w (.table t) = .ok g := by
      intro t id cfg hid hp hc
      have : ∃ gs, Forall₂ (fun c g => fromToml w c = .ok g) cfg.children gs := by
        generalize cfg.children = cs at hc
        induction cs with
        | nil => exact ⟨[], .nil⟩
        | cons c cs ih =>
          obtain ⟨gs, hgs⟩ := ih fun c hm => hc c (List.mem_cons_of_mem _ hm)
          obtain ⟨g, hg⟩ := hc c List.mem_cons_self
          exact ⟨g :: gs, .cons hg hgs⟩
      obtain ⟨gs, hgs⟩ := this
      exact ⟨_, fromToml_iff.2 ⟨t, id, cfg, gs, rfl, hid, parse_iff.2 hp, hgs, rfl⟩⟩
    induction h with
    | leaf hi hm hc =>
      obtain ⟨rfl, hid⟩ := hi
      simp only [List.mem_cons, List.not_mem_nil, or_false] at hm
      rcases hm with rfl | rfl | rfl
      · exact key hid (.array hc) (by simp [Cfg.children])
      · exact key hid (.btree hc) (by simp [Cfg.children])
      · exact key hid (.stream hc) (by simp [Cfg.children])
    | compressed hi hc hf =>
      obtain ⟨rfl, hid⟩ := hi
      rcases hf with hf | ⟨s, hf⟩
      · exact key hid (.compressed (f := none) hc hf) (by simp [Cfg.children])
      · exact key hid (.compressed (f := some s) hc hf) (by simp [Cfg.children])
    | client hi ha hr =>
      obtain ⟨rfl, hid⟩ := hi
      exact key hid (.socketClient ha hr) (by simp [Cfg.children])
    | exclusive hi hf hb _ _ ihf ihb =>
      obtain ⟨rfl, hid⟩ := hi
      exact key hid (.exclusive hf hb) (by simpa [Cfg.children] using ⟨ihf, ihb⟩)
    | group hi hm hl _ ih =>
      obtain ⟨rfl, hid⟩ := hi
      simp only [groups, List.mem_cons, List.not_mem_nil, or_false] at hm
      rcases hm with rfl | rfl
      · exact key hid (.associative hl) ih
      · exact key hid (.batch hl) ih
    | wrapper hi hm hc _ ih =>
      obtain ⟨rfl, hid⟩ := hi
      simp only [wrappers, List.mem_cons, List.not_mem_nil, or_false] at hm
      rcases hm with rfl | rfl | rfl
      · exact key hid (.flushStopper hc) (by simpa [Cfg.children] using ih)
      · exact key hid (.profiler hc) (by simpa [Cfg.children] using ih)
      · exact key hid (.sequential hc) (by simpa [Cfg.children] using ih)

/-- **C45 (invalid anywhere).** A configuration with an invalid configuration nested anywhere in it is
refused. -/
theorem C45_invalid_refused (w : World) {c v : Toml} (h : Within c v)
    (hc : ∀ g, fromToml w c ≠ .ok g) : ∀ g, fromToml w v ≠ .ok g := by
  intro g hg
  have hv : Valid w v := (C45_accepts_iff w v).1 ⟨g, hg⟩
  clear hg
  have hcv : ¬ Valid w c := fun h => by
    obtain ⟨g, hg⟩ := (C45_accepts_iff w c).2 h
    exact hc g hg
  have uniq : ∀ {v t t' id id'}, IsA v id t → IsA v id' t' → t = t' ∧ id = id' := by
    rintro v t t' id id' ⟨rfl, h1⟩ ⟨h2, h3⟩
    cases h2
    rw [h1] at h3
    cases h3
    exact ⟨rfl, rfl⟩
  induction h with
  | self => exact hcv hv
  | front hi hf _ ih =>
    cases hv with
    | leaf hi' hm => obtain ⟨rfl, rfl⟩ := uniq hi hi'; simp at hm
    | compressed hi' => obtain ⟨_, hh⟩ := uniq hi hi'; simp at hh
    | client hi' => obtain ⟨_, hh⟩ := uniq hi hi'; simp at hh
    | group hi' hm => obtain ⟨rfl, rfl⟩ := uniq hi hi'; simp [groups] at hm
    | wrapper hi' hm => obtain ⟨rfl, rfl⟩ := uniq hi hi'; simp [wrappers] at hm
    | exclusive hi' hf' hb' hvf hvb =>
      obtain ⟨rfl, -⟩ := uniq hi hi'
      rw [hf] at hf'; cases hf'
      exact ih hvf
  | back hi hf _ ih =>
    cases hv with
    | leaf hi' hm => obtain ⟨rfl, rfl⟩ := uniq hi hi'; simp at hm
    | compressed hi' => obtain ⟨_, hh⟩ := uniq hi hi'; simp at hh
    | client hi' => obtain ⟨_, hh⟩ := uniq hi hi'; simp at hh
    | group hi' hm => obtain ⟨rfl, rfl⟩ := uniq hi hi'; simp [groups] at hm
    | wrapper hi' hm => obtain ⟨rfl, rfl⟩ := uniq hi hi'; simp [wrappers] at hm
    | exclusive hi' hf' hb' hvf hvb =>
      obtain ⟨rfl, -⟩ := uniq hi hi'
      rw [hf] at hb'; cases hb'
      exact ih hvb
  | group hi hm hl hx _ ih =>
    cases hv with
    | leaf hi' hm' => obtain ⟨rfl, rfl⟩ := uniq hi hi'; simp [groups] at hm hm'; rcases hm with h | h <;> rw [h] at hm' <;> simp at hm'
    | compressed hi' => obtain ⟨_, rfl⟩ := uniq hi hi'; simp [groups] at hm
    | client hi' => obtain ⟨_, rfl⟩ := uniq hi hi'; simp [groups] at hm
    | exclusive hi' => obtain ⟨_, rfl⟩ := uniq hi hi'; simp [groups] at hm
    | wrapper hi' hm' => obtain ⟨rfl, rfl⟩ := uniq hi hi'; simp [groups, wrappers] at hm hm'; rcases hm with h | h <;> rw [h] at hm' <;> simp at hm'
    | group hi' _ hl' hall =>
      obtain ⟨rfl, rfl⟩ := uniq hi hi'
      rw [hl] at hl'; cases hl'
      exact ih (hall _ hx)
  | wrapper hi hm hl _ ih =>
    cases hv with
    | leaf hi' hm' => obtain ⟨rfl, rfl⟩ := uniq hi hi'; simp [wrappers] at hm hm'; rcases hm with h | h | h <;> rw [h] at hm' <;> simp at hm'
    | compressed hi' => obtain ⟨_, rfl⟩ := uniq hi hi'; simp [wrappers] at hm
    | client hi' => obtain ⟨_, rfl⟩ := uniq hi hi'; simp [wrappers] at hm
    | exclusive hi' => obtain ⟨_, rfl⟩ := uniq hi hi'; simp [wrappers] at hm
    | group hi' hm' => obtain ⟨rfl, rfl⟩ := uniq hi hi'; simp [groups, wrappers] at hm hm'; rcases hm with h | h | h <;> rw [h] at hm' <;> simp at hm'
    | wrapper hi' _ hl' hall =>
      obtain ⟨rfl, rfl⟩ := uniq hi hi'
      rw [hl] at hl'; cases hl'
      exact ih hall

/-- The configurations within `v` are `v` and those within its nested configurations. -/
theorem within_iff {w : World} {t : Fields} {id : String} {cfg : Cfg} {c : Toml}
    (hid : t.lookup "id" = some (.str id)) (hp : parse w id t = .ok cfg) :
    Within c (.table t) ↔ c = .table t ∨ ∃ x ∈ cfg.children, Within c x := by
  have hp := parse_iff.1 hp
  have hi := isA_table hid
  constructor
  · intro h
    cases h with
    | self => exact .inl rfl
    | front hi' hf hw =>
      obtain ⟨h1, h2⟩ := hi'
      cases h1
      rw [hid] at h2; cases h2
      obtain ⟨f, b, rfl, h1, h2⟩ := hp.exclusive_inv
      rw [hf] at h1; cases h1; exact .inr ⟨_, by simp [Cfg.children], hw⟩
    | back hi' hf hw =>
      obtain ⟨h1, h2⟩ := hi'
      cases h1
      rw [hid] at h2; cases h2
      obtain ⟨f, b, rfl, h1, h2⟩ := hp.exclusive_inv
      rw [hf] at h2; cases h2; exact .inr ⟨_, by simp [Cfg.children], hw⟩
    | group hi' hm hl hx hw =>
      obtain ⟨h1, h2⟩ := hi'
      cases h1
      rw [hid] at h2; cases h2
      simp only [groups, List.mem_cons, List.not_mem_nil, or_false] at hm
      rcases hm with rfl | rfl
      · obtain ⟨l, rfl, h⟩ := hp.associative_inv
        rw [hl] at h; cases h; exact .inr ⟨_, hx, hw⟩
      · obtain ⟨l, rfl, h⟩ := hp.batch_inv
        rw [hl] at h; cases h; exact .inr ⟨_, hx, hw⟩
    | wrapper hi' hm hl hw =>
      obtain ⟨h1, h2⟩ := hi'
      cases h1
      rw [hid] at h2; cases h2
      simp only [wrappers, List.mem_cons, List.not_mem_nil, or_false] at hm
      rcases hm with rfl | rfl | rfl
      · obtain ⟨l, rfl, h⟩ := hp.flushStopper_inv
        rw [hl] at h; cases h; exact .inr ⟨_, by simp [Cfg.children], hw⟩
      · obtain ⟨l, rfl, h⟩ := hp.profiler_inv
        rw [hl] at h; cases h; exact .inr ⟨_, by simp [Cfg.children], hw⟩
      · obtain ⟨l, rfl, h⟩ := hp.sequential_inv
        rw [hl] at h; cases h; exact .inr ⟨_, by simp [Cfg.children], hw⟩
  · rintro (rfl | ⟨x, hx, hw⟩)
    · exact .self
    · cases hp with
      | associative h => exact .group hi (by simp [groups]) h hx hw
      | batch h => exact .group hi (by simp [groups]) h hx hw
      | exclusive h1 h2 =>
        simp only [Cfg.children, List.mem_cons, List.not_mem_nil, or_false] at hx
        rcases hx with rfl | rfl
        · exact .front hi h1 hw
        · exact .back hi h2 hw
      | flushStopper h =>
        simp only [Cfg.children, List.mem_cons, List.not_mem_nil, or_false] at hx
        exact .wrapper hi (by simp [wrappers]) h (hx ▸ hw)
      | profiler h =>
        simp only [Cfg.children, List.mem_cons, List.not_mem_nil, or_false] at hx
        exact .wrapper hi (by simp [wrappers]) h (hx ▸ hw)
      | sequential h =>
        simp only [Cfg.children, List.mem_cons, List.not_mem_nil, or_false] at hx
        exact .wrapper hi (by simp [wrappers]) h (hx ▸ hw)
      | _ => simp [Cfg.children] at hx

/-- What a configuration needs from outside, itself. -/
def Here (w : World) (P : Params K V) : Cfg → Prop
  | .compressed f _ => ∀ s, f = some s → w.opens s = true
  | .socketClient a => P.remote a ≠ none
  | _ => True

omit [LinearOrder K] in
theorem available_iff {w : World} {P : Params K V} {t : Fields} {id : String} {cfg : Cfg}
    (hid : t.lookup "id" = some (.str id)) (hp : parse w id t = .ok cfg) :
    Available w P (.table t) ↔ Here w P cfg ∧ ∀ x ∈ cfg.children, Available w P x := by
  have hp' := parse_iff.1 hp
  constructor
  · intro h
    refine ⟨?_, fun x hx c t' hc => h c t' ((within_iff hid hp).2 (.inr ⟨x, hx, hc⟩))⟩
    obtain ⟨h1, h2⟩ := h (.table t) t .self
    cases hp' with
    | compressed hc hf =>
      intro s hs
      subst hs
      exact h1 s (isA_table hid) hf
    | socketClient ha _ => exact h2 _ (isA_table hid) ha
    | _ => trivial
  · rintro ⟨h1, h2⟩ c t' hc
    rcases (within_iff hid hp).1 hc with rfl | ⟨x, hx, hc⟩
    · refine ⟨?_, ?_⟩
      · rintro f ⟨ht, hi⟩ hf
        cases ht
        rw [hid] at hi; cases hi
        obtain ⟨f', n, rfl, hc, hf'⟩ := hp'.compressed_inv
        rw [hf] at hf'
        cases f' with
        | none => cases hf'
        | some s => cases hf'; exact h1 f rfl
      · rintro a ⟨ht, hi⟩ ha
        cases ht
        rw [hid] at hi; cases hi
        obtain ⟨a', rfl, ha', -⟩ := hp'.socketClient_inv
        rw [ha] at ha'; cases ha'; exact h1
    · exact h2 x hx c t' hc

theorem forall2_exists {α β : Type _} {R : α → β → Prop} {l : List α}
    (h : ∀ x ∈ l, ∃ y, R x y) : ∃ ys, Forall₂ R l ys := by
  induction l with
  | nil => exact ⟨[], .nil⟩
  | cons c cs ih =>
    obtain ⟨gs, hgs⟩ := ih fun c hm => h c (List.mem_cons_of_mem _ hm)
    obtain ⟨g, hg⟩ := h c List.mem_cons_self
    exact ⟨g :: gs, .cons hg hgs⟩

theorem forall2_mem {α β : Type _} {R : α → β → Prop} {l : List α} {ys : List β}
    (h : Forall₂ R l ys) : ∀ x ∈ l, ∃ y, R x y := by
  induction h with
  | nil => intro x hx; cases hx
  | cons h _ ih =>
    intro x hx
    rcases List.mem_cons.1 hx with rfl | hx
    · exact ⟨_, h⟩
    · exact ih x hx

theorem assemble_ok_iff {w : World} {P : Params K V} {t : Fields} {id : String} {cfg : Cfg} {conc : Bool}
    {bs : List (Built K V)} (hp : Parsed w t id cfg) (hl : cfg.children.length = bs.length) :
    (∃ b, assemble w P cfg conc bs = .ok b) ↔ Here w P cfg := by
  cases hp with
  | @compressed _ f _ hf =>
    simp only [assemble, Here]
    cases f with
    | none => simp
    | some s => by_cases hs : w.opens s = true <;> simp [hs]
  | @socketClient a =>
    simp only [assemble, Here]
    cases P.remote a <;> simp
  | exclusive =>
    match bs, hl with
    | [x, y], _ => simp [assemble, Here]
  | flushStopper =>
    match bs, hl with
    | [x], _ => simp [assemble, Here]
  | profiler =>
    match bs, hl with
    | [x], _ => simp [assemble, Here]
  | sequential =>
    match bs, hl with
    | [x], _ => simp [assemble, Here]
  | _ => simp [assemble, Here]

/-- **C45 (builds).** An accepted configuration can be built iff the files and servers it names are
there: no other failure, at any depth. -/
theorem C45_builds_iff (w : World) (P : Params K V) {v : Toml} {g : Generic}
    (h : fromToml w v = .ok g) : (∃ b, build w P v = .ok b) ↔ Available w P v := by
  revert g
  refine nested_induction (w := w)
    (motive := fun v => ∀ {g}, fromToml w v = .ok g → ((∃ b, build w P v = .ok b) ↔ Available w P v)) ?_ v
  intro v ih g hg
  obtain ⟨t, id, cfg, gs, rfl, hid, hp, hgs, -⟩ := fromToml_iff.1 hg
  rw [available_iff hid hp]
  have hch : ∀ c ∈ cfg.children, ((∃ b, build w P c = .ok b) ↔ Available w P c) := by
    intro c hc
    obtain ⟨g, hg⟩ := forall2_mem hgs c hc
    exact ih t id cfg rfl hp c hc hg
  constructor
  · rintro ⟨b, hb⟩
    obtain ⟨t', id', cfg', gs', bs, ht, hid', hp', hgs', hbs, ha⟩ := build_iff.1 hb
    cases ht
    rw [hid] at hid'; cases hid'
    rw [hp] at hp'; cases hp'
    exact ⟨(assemble_ok_iff (parse_iff.1 hp) hbs.length_eq).1 ⟨b, ha⟩,
      fun x hx => (hch x hx).1 (forall2_mem hbs x hx)⟩
  · rintro ⟨hh, hav⟩
    obtain ⟨bs, hbs⟩ := forall2_exists fun x hx => (hch x hx).2 (hav x hx)
    obtain ⟨b, hb⟩ := (assemble_ok_iff (P := P) (conc := cfg.isConcurrent gs) (parse_iff.1 hp)
      hbs.length_eq).2 hh
    exact ⟨b, build_iff.2 ⟨t, id, cfg, gs, bs, rfl, hid, hp, hgs, hbs, hb⟩⟩

theorem announcesAll_of {cap : String → Option Nat} {w : World} {P : Params K V} {l : List Toml}
    {bs : List (Built K V)} (h : Forall₂ (fun c b => build w P c = .ok b) l bs)
    (hc : ∀ c ∈ l, ∀ b, build w P c = .ok b → Announces cap c b.capacity) :
    AnnouncesAll cap l (bs.map Built.capacity).sum := by
  induction h with
  | nil => exact .nil
  | cons h _ ih =>
    exact .cons (hc _ List.mem_cons_self _ h) (ih fun c hm => hc c (List.mem_cons_of_mem _ hm))

/-- **C45 (capacity).** The container built has the capacity announced. -/
theorem C45_capacity (w : World) (P : Params K V) {v : Toml} {b : Built K V}
    (h : build w P v = .ok b) : Announces (remoteCapacity P) v b.capacity := by
  revert b
  refine nested_induction (w := w)
    (motive := fun v => ∀ {b}, build w P v = .ok b → Announces (remoteCapacity P) v b.capacity) ?_ v
  intro v ih b hb
  obtain ⟨t, id, cfg, gs, bs, rfl, hid, hp, hgs, hbs, ha⟩ := build_iff.1 hb
  have ih : ∀ c ∈ cfg.children, ∀ b, build w P c = .ok b → Announces (remoteCapacity P) c b.capacity :=
    fun c hc b hb => ih t id cfg rfl hp c hc hb
  have hi := isA_table hid
  cases parse_iff.1 hp with
  | array h => cases ha; exact .leaf hi (by simp) h
  | btree h => cases ha; exact .leaf hi (by simp) h
  | stream h => cases ha; exact .leaf hi (by simp) h
  | compressed h =>
    simp only [assemble] at ha
    split at ha
    · cases ha; exact .leaf hi (by simp) h
    · cases ha
  | associative h =>
    cases ha
    have := announcesAll_of hbs ih
    rw [← capacity_states] at this
    exact .group hi (by simp [groups]) h this
  | batch h =>
    cases ha
    have := announcesAll_of hbs ih
    rw [← capacity_states] at this
    exact .group hi (by simp [groups]) h this
  | exclusive h1 h2 =>
    cases hbs with
    | cons hf hbs =>
      cases hbs with
      | cons hb' hbs =>
        cases hbs
        cases ha
        exact .exclusive hi h1 h2 (ih _ (by simp [Cfg.children]) _ hf) (ih _ (by simp [Cfg.children]) _ hb')
  | flushStopper h1 =>
    cases hbs with
    | cons hf hbs =>
      cases hbs
      cases ha
      have := ih _ (by simp [Cfg.children]) _ hf
      exact .wrapper hi (by simp [wrappers]) h1 this
  | profiler h1 =>
    cases hbs with
    | cons hf hbs =>
      cases hbs
      cases ha
      have := ih _ (by simp [Cfg.children]) _ hf
      exact .wrapper hi (by simp [wrappers]) h1 this
  | sequential h1 =>
    cases hbs with
    | cons hf hbs =>
      cases hbs
      cases ha
      have := ih _ (by simp [Cfg.children]) _ hf
      exact .wrapper hi (by simp [wrappers]) h1 this
  | @socketClient a h1 =>
    simp only [assemble] at ha
    split at ha
    · next r hr =>
      cases ha
      exact .client hi h1 (by simp only [remoteCapacity, hr]; rfl)
    · cases ha

theorem IsA.unique {v : Toml} {t t' : Fields} {id id' : String} (h : IsA v id t) (h' : IsA v id' t') :
    t = t' ∧ id = id' := by
  obtain ⟨rfl, h1⟩ := h
  obtain ⟨h2, h3⟩ := h'
  cases h2
  rw [h1] at h3
  cases h3
  exact ⟨rfl, rfl⟩

/-- The capacity announced is one number. -/
theorem Announces.unique {cap : String → Option Nat} {v : Toml} {m n : Nat} (h : Announces cap v m)
    (h' : Announces cap v n) : m = n := by
  refine Announces.rec (motive_1 := fun v m _ => ∀ n, Announces cap v n → m = n)
    (motive_2 := fun l m _ => ∀ n, AnnouncesAll cap l n → m = n) ?_ ?_ ?_ ?_ ?_ ?_ ?_ h n h'
  · intro v t id _ hi hm hc n h'
    cases h' with
    | leaf hi' _ hc' =>
      obtain ⟨rfl, -⟩ := hi.unique hi'
      rw [hc] at hc'
      simpa using hc'
    | client hi' => obtain ⟨-, rfl⟩ := hi.unique hi'; simp at hm
    | exclusive hi' => obtain ⟨-, rfl⟩ := hi.unique hi'; simp at hm
    | group hi' hm' => obtain ⟨-, rfl⟩ := hi.unique hi'; simp [groups] at hm hm'; rcases hm' with h | h <;> rw [h] at hm <;> simp at hm
    | wrapper hi' hm' => obtain ⟨-, rfl⟩ := hi.unique hi'; simp [wrappers] at hm hm'; rcases hm' with h | h | h <;> rw [h] at hm <;> simp at hm
  · intro v t a _ hi ha hc n h'
    cases h' with
    | leaf hi' hm => obtain ⟨-, rfl⟩ := hi.unique hi'; simp at hm
    | client hi' ha' hc' =>
      obtain ⟨rfl, -⟩ := hi.unique hi'
      rw [ha] at ha'; cases ha'
      rw [hc] at hc'; exact Option.some.inj hc'
    | exclusive hi' => obtain ⟨-, hh⟩ := hi.unique hi'; simp at hh
    | group hi' hm' => obtain ⟨-, rfl⟩ := hi.unique hi'; simp [groups] at hm'
    | wrapper hi' hm' => obtain ⟨-, rfl⟩ := hi.unique hi'; simp [wrappers] at hm'
  · intro v t f b _ _ hi hf hb _ _ ih1 ih2 n h'
    cases h' with
    | leaf hi' hm => obtain ⟨-, rfl⟩ := hi.unique hi'; simp at hm
    | client hi' => obtain ⟨-, hh⟩ := hi.unique hi'; simp at hh
    | exclusive hi' hf' hb' h1' h2' =>
      obtain ⟨rfl, -⟩ := hi.unique hi'
      rw [hf] at hf'; cases hf'
      rw [hb] at hb'; cases hb'
      rw [ih1 _ h1', ih2 _ h2']
    | group hi' hm' => obtain ⟨-, rfl⟩ := hi.unique hi'; simp [groups] at hm'
    | wrapper hi' hm' => obtain ⟨-, rfl⟩ := hi.unique hi'; simp [wrappers] at hm'
  · intro v t id l _ hi hm hl _ ih1 n h'
    cases h' with
    | leaf hi' hm' => obtain ⟨-, rfl⟩ := hi.unique hi'; simp [groups] at hm hm'; rcases hm with h | h <;> rw [h] at hm' <;> simp at hm'
    | client hi' => obtain ⟨-, rfl⟩ := hi.unique hi'; simp [groups] at hm
    | exclusive hi' => obtain ⟨-, rfl⟩ := hi.unique hi'; simp [groups] at hm
    | group hi' _ hl' h1' =>
      obtain ⟨rfl, -⟩ := hi.unique hi'
      rw [hl] at hl'; cases hl'
      exact ih1 _ h1'
    | wrapper hi' hm' => obtain ⟨-, rfl⟩ := hi.unique hi'; simp [groups, wrappers] at hm hm'; rcases hm with h | h <;> rw [h] at hm' <;> simp at hm'
  · intro v t id c _ hi hm hl _ ih1 n h'
    cases h' with
    | leaf hi' hm' => obtain ⟨-, rfl⟩ := hi.unique hi'; simp [wrappers] at hm hm'; rcases hm with h | h | h <;> rw [h] at hm' <;> simp at hm'
    | client hi' => obtain ⟨-, rfl⟩ := hi.unique hi'; simp [wrappers] at hm
    | exclusive hi' => obtain ⟨-, rfl⟩ := hi.unique hi'; simp [wrappers] at hm
    | group hi' hm' => obtain ⟨-, rfl⟩ := hi.unique hi'; simp [groups, wrappers] at hm hm'; rcases hm with h | h | h <;> rw [h] at hm' <;> simp at hm'
    | wrapper hi' _ hl' h1' =>
      obtain ⟨rfl, -⟩ := hi.unique hi'
      rw [hl] at hl'; cases hl'
      exact ih1 _ h1'
  · intro n h'
    cases h'
    rfl
  · intro c l m n _ _ ih1 ih2 n' h'
    cases h' with
    | cons h1' h2' => rw [ih1 _ h1', ih2 _ h2']

/-- **C45.** An accepted configuration whose files and servers are available builds a container whose
capacity is the (one) capacity announced. -/
theorem C45_config_builds (w : World) (P : Params K V) {v : Toml} {g : Generic}
    (h : fromToml w v = .ok g) (ha : Available w P v) :
    ∃ b, build w P g.toml = .ok b ∧ ∀ n, Announces (remoteCapacity P) v n ↔ b.capacity = n := by
  obtain ⟨b, hb⟩ := (C45_builds_iff w P h).2 ha
  refine ⟨b, fromToml_toml h ▸ hb, fun n => ⟨fun hn => (C45_capacity w P hb).unique hn, ?_⟩⟩
  rintro rfl
  exact C45_capacity w P hb

/-- The decorated parameters agree on the servers: same capacity whatever the decoration. -/
structure DAvailable (w : World) (P : DParams K V) (v : Toml) : Prop where
  plain : Available w P.plain v
  fifo : Available w P.fifo v
  lru : Available w P.lru v
  lrfu : Available w P.lrfu v
  capFifo : remoteCapacity P.fifo = remoteCapacity P.plain
  capLru : remoteCapacity P.lru = remoteCapacity P.plain
  capLrfu : remoteCapacity P.lrfu = remoteCapacity P.plain

/-- **C45 (`ConfigBuilder`).** The same through the entry point, with any decorator: accepted, it
builds, with the capacity announced. -/
theorem C45_builder_builds (w : World) (P : DParams K V) {v : Toml} {b : Builder}
    (h : builderFromToml w v = .ok b) (ha : DAvailable w P v) :
    ∃ c, builderBuild w P b = .ok c ∧ ∀ n, Announces (remoteCapacity P.plain) v n ↔ c.capacity = n := by
  have h' : fromToml w v = .ok b.config := by
    unfold builderFromToml at h
    split at h
    · simp only [bind, Except.bind, pure, Except.pure] at h
      split at h
      · cases h
      · split at h
        · cases h
        · next hg => cases h; exact hg
    · cases h
  unfold builderBuild
  cases b.decorator with
  | none => exact C45_config_builds w P.plain h' ha.plain
  | fifo =>
    obtain ⟨c, hc, hn⟩ := C45_config_builds w P.fifo h' ha.fifo
    rw [ha.capFifo] at hn
    simp only [hc]
    exact ⟨_, rfl, hn⟩
  | lru =>
    obtain ⟨c, hc, hn⟩ := C45_config_builds w P.lru h' ha.lru
    rw [ha.capLru] at hn
    simp only [hc]
    exact ⟨_, rfl, hn⟩
  | lrfu e =>
    obtain ⟨c, hc, hn⟩ := C45_config_builds w P.lrfu h' ha.lrfu
    rw [ha.capLrfu] at hn
    simp only [hc]
    exact ⟨_, rfl, hn⟩

/-- **C45 (`ConfigBuilder`, refusals).** Accepted iff the configuration is valid and the `decorator`
field, if any, is a table whose `kind`, if any, is one of the three documented. -/
theorem C45_builder_accepts_iff (w : World) (t : Fields)
    (hq : t.lookup "decorator.Lrfu.exponent" = none) :
    (∃ b, builderFromToml w (.table t) = .ok b) ↔ Valid w (.table t) ∧
      (t.lookup "decorator" = none ∨ ∃ d, t.lookup "decorator" = some (.table d) ∧
        (d.lookup "kind" = none ∨ ∃ k ∈ ["Fifo", "Lru", "Lrfu"], d.lookup "kind" = some (.str k))) := by
  rw [← C45_accepts_iff]
  have key : (∃ d, decoratorOf t = .ok d) ↔ (t.lookup "decorator" = none ∨
      ∃ d, t.lookup "decorator" = some (.table d) ∧
        (d.lookup "kind" = none ∨ ∃ k ∈ ["Fifo", "Lru", "Lrfu"], d.lookup "kind" = some (.str k))) := by
    unfold decoratorOf
    cases hd : t.lookup "decorator" with
    | none => simp
    | some x =>
      cases x with
      | table d =>
        simp only [Option.some.injEq, Toml.table.injEq, exists_eq_left', reduceCtorEq, false_or]
        cases hk : d.lookup "kind" with
        | none => exact ⟨fun _ => .inl rfl, fun _ => ⟨_, rfl⟩⟩
        | some k =>
          cases k with
          | str s =>
            simp only [hq, reduceCtorEq, Option.some.injEq, Toml.str.injEq, false_or]
            constructor
            · rintro ⟨x, hx⟩
              split at hx
              · next h => cases h
              · next h => cases h; exact ⟨"Fifo", by simp, rfl⟩
              · next h => cases h; exact ⟨"Lru", by simp, rfl⟩
              · next h => cases h; exact ⟨"Lrfu", by simp, rfl⟩
              · cases hx
            · rintro ⟨k, hk, rfl⟩
              simp only [List.mem_cons, List.not_mem_nil, or_false] at hk
              rcases hk with rfl | rfl | rfl <;> exact ⟨_, rfl⟩
          | _ => simp
      | _ => simp
  rw [← key]
  unfold builderFromToml
  simp only [bind, Except.bind, pure, Except.pure]
  constructor
  · rintro ⟨b, hb⟩
    split at hb
    · cases hb
    · next d hd =>
      split at hb
      · cases hb
      · next g hg => exact ⟨⟨g, hg⟩, d, hd⟩
  · rintro ⟨⟨g, hg⟩, d, hd⟩
    exact ⟨⟨g, d⟩, by rw [hd]; simp only [hg]⟩

/-! ## C46 -/

/-- The containers that may be shared between threads: `Sequential` over anything; `Associative`,
`FlushStopper` and `Profiler` over such containers. -/
inductive Concurrent : Toml → Prop
  | sequential {v t} : IsA v "SequentialConfig" t → Concurrent v
  | associative {v t l} : IsA v "AssociativeConfig" t → t.lookup "container" = some (.arr l) →
      (∀ c ∈ l, Concurrent c) → Concurrent v
  | wrapper {v t id c} : IsA v id t → id ∈ ["FlushStopperConfig", "ProfilerConfig"] →
      t.lookup "container" = some c → Concurrent c → Concurrent v

/-- **C46, full statement.** The container built from an accepted configuration can be used as a
concurrent container exactly if the configuration describes a concurrent one.  False of the code, see
`C46_false`. -/
def C46_full : Prop := ∀ (K V : Type) (_ : LinearOrder K) (w : World) (P : Params K V) (v : Toml)
  (g : Generic) (b : Built K V), fromToml w v = .ok g → build w P g.toml = .ok b →
    (b.intoConcurrent = true ↔ Concurrent v)

theorem all_isConcurrent (gs : List Generic) : gs.all Generic.isConcurrent = true ↔ gs = [] := by
  cases gs <;> simp [Generic.isConcurrent]

/-- The flag of the container built is the one of the configuration. -/
theorem flag_eq {w : World} {P : Params K V} {v : Toml} {g : Generic} {b : Built K V}
    (hg : fromToml w v = .ok g) (hb : build w P v = .ok b) :
    b.intoConcurrent = g.hasConcurrentTrait := by
  obtain ⟨t, id, cfg, gs, rfl, hid, hp, hgs, rfl⟩ := fromToml_iff.1 hg
  obtain ⟨t', id', cfg', gs', bs, ht, hid', hp', hgs', hbs, ha⟩ := build_iff.1 hb
  cases ht
  rw [hid] at hid'; cases hid'
  rw [hp] at hp'; cases hp'
  have : gs = gs' := by
    clear hbs ha hp hg hb
    generalize cfg.children = l at hgs hgs'
    induction hgs generalizing gs' with
    | nil => cases hgs'; rfl
    | cons h _ ih =>
      cases hgs' with
      | cons h' hr => rw [h] at h'; cases h'; rw [ih _ hr]
  subst this
  have hlen := hbs.length_eq
  cases parse_iff.1 hp with
  | compressed h =>
    simp only [assemble] at ha
    split at ha
    · cases ha; rfl
    · cases ha
  | socketClient h1 =>
    simp only [assemble] at ha
    split at ha
    · cases ha; rfl
    · cases ha
  | exclusive =>
    match bs, hlen with
    | [x, y], _ => cases ha; rfl
  | flushStopper =>
    match bs, hlen with
    | [x], _ => cases ha; rfl
  | profiler =>
    match bs, hlen with
    | [x], _ => cases ha; rfl
  | sequential =>
    match bs, hlen with
    | [x], _ => cases ha; rfl
  | _ => cases ha; rfl

/-- **C46 (exactly).** What the code announces as concurrent: `Sequential`, and `Associative` over no
container at all. -/
theorem C46_flag_iff (w : World) (P : Params K V) {v : Toml} {g : Generic} {b : Built K V}
    (hg : fromToml w v = .ok g) (hb : build w P g.toml = .ok b) :
    b.intoConcurrent = true ↔ (∃ t, IsA v "SequentialConfig" t) ∨
      ∃ t, IsA v "AssociativeConfig" t ∧ t.lookup "container" = some (.arr []) := by
  rw [fromToml_toml hg] at hb
  rw [flag_eq hg hb]
  obtain ⟨t, id, cfg, gs, rfl, hid, hp, hgs, rfl⟩ := fromToml_iff.1 hg
  have hi := isA_table hid
  have hne : ∀ {id' t'}, id ≠ id' → ¬ IsA (.table t) id' t' := fun h h' => h (hi.unique h').2
  cases parse_iff.1 hp with
  | sequential => simpa [Cfg.isConcurrent] using .inl ⟨t, hi⟩
  | @associative l h =>
    simp only [Cfg.isConcurrent, all_isConcurrent]
    constructor
    · rintro rfl
      cases hgs
      exact .inr ⟨t, hi, h⟩
    · rintro (⟨t', h'⟩ | ⟨t', h', hl⟩)
      · exact absurd h' (hne (by simp))
      · obtain ⟨rfl, -⟩ := hi.unique h'
        rw [h] at hl
        cases hl
        cases hgs
        rfl
  | flushStopper h =>
    simp only [Cfg.isConcurrent, all_isConcurrent]
    constructor
    · rintro rfl; cases hgs
    · rintro (⟨t', h'⟩ | ⟨t', h', -⟩) <;> exact absurd h' (hne (by simp))
  | profiler h =>
    simp only [Cfg.isConcurrent, all_isConcurrent]
    constructor
    · rintro rfl; cases hgs
    · rintro (⟨t', h'⟩ | ⟨t', h', -⟩) <;> exact absurd h' (hne (by simp))
  | _ =>
    simp only [Cfg.isConcurrent, Bool.false_eq_true, false_iff]
    rintro (⟨t', h'⟩ | ⟨t', h', -⟩) <;> exact hne (by simp) h'

/-- **C46, proved part.** A configuration that does not describe a concurrent container is refused,
and `Sequential` over anything is accepted.  Missing: `Associative`, `FlushStopper` and `Profiler`
over concurrent containers are refused by the code (`C46_nested_refused`). -/
theorem C46_partial (w : World) (P : Params K V) {v : Toml} {g : Generic} {b : Built K V}
    (hg : fromToml w v = .ok g) (hb : build w P g.toml = .ok b) :
    (¬ Concurrent v → b.intoConcurrent = false) ∧
    ((∃ t, IsA v "SequentialConfig" t) → b.intoConcurrent = true) := by
  have h := C46_flag_iff w P hg hb
  refine ⟨fun hn => ?_, fun hs => h.2 (.inl hs)⟩
  rw [← Bool.not_eq_true, h]
  rintro (⟨t, ht⟩ | ⟨t, ht, hl⟩)
  · exact hn (.sequential ht)
  · exact hn (.associative ht hl (by simp))

/-- **C46, what is missing.** Every concurrent configuration other than `Sequential` and the empty
`Associative` is refused. -/
theorem C46_nested_refused (w : World) (P : Params K V) {v c : Toml} {t : Fields} {g : Generic}
    {b : Built K V} (hg : fromToml w v = .ok g) (hb : build w P g.toml = .ok b)
    (h : (∃ id ∈ ["FlushStopperConfig", "ProfilerConfig"], IsA v id t) ∨
      (IsA v "AssociativeConfig" t ∧ ∃ l, t.lookup "container" = some (.arr (c :: l)))) :
    b.intoConcurrent = false := by
  rw [← Bool.not_eq_true, C46_flag_iff w P hg hb]
  rintro (⟨t', ht⟩ | ⟨t', ht, hl⟩)
  · rcases h with ⟨id, hm, hi⟩ | ⟨hi, -⟩
    · obtain ⟨-, rfl⟩ := hi.unique ht; simp at hm
    · obtain ⟨-, hh⟩ := hi.unique ht; simp at hh
  · rcases h with ⟨id, hm, hi⟩ | ⟨hi, l, hl'⟩
    · obtain ⟨-, rfl⟩ := hi.unique ht; simp at hm
    · obtain ⟨rfl, -⟩ := hi.unique ht
      rw [hl] at hl'
      cases hl'

/-- **C46 (`ConfigBuilder`).** The decorator changes nothing to the answer. -/
theorem C46_builder (w : World) (P : DParams K V) {v : Toml} {b : Builder} {c : Built K V}
    (h : builderFromToml w v = .ok b) (hc : builderBuild w P b = .ok c) :
    c.intoConcurrent = true ↔ (∃ t, IsA v "SequentialConfig" t) ∨
      ∃ t, IsA v "AssociativeConfig" t ∧ t.lookup "container" = some (.arr []) := by
  have h' : fromToml w v = .ok b.config := by
    unfold builderFromToml at h
    split at h
    · simp only [bind, Except.bind, pure, Except.pure] at h
      split at h
      · cases h
      · split at h
        · cases h
        · next hg => cases h; exact hg
    · cases h
  unfold builderBuild at hc
  split at hc
  · exact C46_flag_iff w P.plain h' hc
  all_goals
    simp only [bind, Res.bind] at hc
    split at hc
    · next x hx =>
      cases hc
      rw [← C46_flag_iff w _ h' hx]
      exact iff_of_eq (congrArg (· = true) (flag_eq h' (fromToml_toml h' ▸ hx)).symm)
    · cases hc

/-! ### Concrete configurations -/

/-- Everything resolves and opens. -/
def anyWorld : World := { resolves := fun _ => true, opens := fun _ => true }

/-- Keys and values are numbers, nobody serves. -/
def natParams : Params Nat Nat where
  srt := ArrayProps.natSorter
  srtS := ArrayProps.natSorter
  srtU := ArrayProps.natSorter
  ord := inferInstance
  codec := StreamProps.small
  vecCodec := CompressedProps.smallVec
  lz4 := CompressedProps.noComp
  hash := id
  remote := fun _ => none

def arrayToml (n : Nat) : Toml := .table [("id", .str "ArrayConfig"), ("capacity", .int n)]
def btreeToml (n : Nat) : Toml := .table [("id", .str "BTreeConfig"), ("capacity", .int n)]
def wrapToml (id : String) (c : Toml) : Toml := .table [("id", .str id), ("container", c)]
def groupToml (id : String) (l : List Toml) : Toml := .table [("id", .str id), ("container", .arr l)]
def exclusiveToml (f b : Toml) : Toml := .table [("id", .str "ExclusiveConfig"), ("front", f), ("back", b)]

theorem arrayToml_valid (w : World) (n : Nat) : Valid w (arrayToml n) :=
  .leaf ⟨rfl, rfl⟩ (by simp) rfl
theorem btreeToml_valid (w : World) (n : Nat) : Valid w (btreeToml n) :=
  .leaf ⟨rfl, rfl⟩ (by simp) rfl
theorem wrapToml_valid {w : World} {id : String} {c : Toml} (hm : id ∈ wrappers) (h : Valid w c) :
    Valid w (wrapToml id c) := .wrapper ⟨rfl, rfl⟩ hm rfl h
theorem groupToml_valid {w : World} {id : String} {l : List Toml} (hm : id ∈ groups)
    (h : ∀ c ∈ l, Valid w c) : Valid w (groupToml id l) := .group ⟨rfl, rfl⟩ hm rfl h
theorem exclusiveToml_valid {w : World} {f b : Toml} (hf : Valid w f) (hb : Valid w b) :
    Valid w (exclusiveToml f b) := .exclusive ⟨rfl, rfl⟩ rfl rfl hf hb

omit [LinearOrder K] in
theorem arrayToml_available (w : World) (P : Params K V) (n : Nat) : Available w P (arrayToml n) :=
  (available_iff rfl (parse_iff.2 (.array rfl))).2 ⟨trivial, by simp [Cfg.children]⟩
omit [LinearOrder K] in
theorem btreeToml_available (w : World) (P : Params K V) (n : Nat) : Available w P (btreeToml n) :=
  (available_iff rfl (parse_iff.2 (.btree rfl))).2 ⟨trivial, by simp [Cfg.children]⟩
omit [LinearOrder K] in
theorem wrapToml_available {w : World} {P : Params K V} {id : String} {c : Toml} (hm : id ∈ wrappers)
    (h : Available w P c) : Available w P (wrapToml id c) := by
  simp only [wrappers, List.mem_cons, List.not_mem_nil, or_false] at hm
  rcases hm with rfl | rfl | rfl
  · exact (available_iff rfl (parse_iff.2 (.flushStopper rfl))).2 ⟨trivial, by simpa [Cfg.children]⟩
  · exact (available_iff rfl (parse_iff.2 (.profiler rfl))).2 ⟨trivial, by simpa [Cfg.children]⟩
  · exact (available_iff rfl (parse_iff.2 (.sequential rfl))).2 ⟨trivial, by simpa [Cfg.children]⟩
omit [LinearOrder K] in
theorem groupToml_available {w : World} {P : Params K V} {id : String} {l : List Toml}
    (hm : id ∈ groups) (h : ∀ c ∈ l, Available w P c) : Available w P (groupToml id l) := by
  simp only [groups, List.mem_cons, List.not_mem_nil, or_false] at hm
  rcases hm with rfl | rfl
  · exact (available_iff rfl (parse_iff.2 (.associative rfl))).2 ⟨trivial, by simpa [Cfg.children]⟩
  · exact (available_iff rfl (parse_iff.2 (.batch rfl))).2 ⟨trivial, by simpa [Cfg.children]⟩
omit [LinearOrder K] in
theorem exclusiveToml_available {w : World} {P : Params K V} {f b : Toml} (hf : Available w P f)
    (hb : Available w P b) : Available w P (exclusiveToml f b) :=
  (available_iff rfl (parse_iff.2 (.exclusive rfl rfl))).2 ⟨trivial, by simpa [Cfg.children] using ⟨hf, hb⟩⟩

/-- A configuration of four levels. -/
def sampleToml : Toml :=
  wrapToml "SequentialConfig" (exclusiveToml (arrayToml 3)
    (wrapToml "ProfilerConfig" (groupToml "BatchConfig" [arrayToml 4, btreeToml 5])))

/-- The hypotheses of C45 and C46 are met: it is accepted, it builds, its capacity is 12, it can be
shared. -/
theorem C45_example : ∃ g b, fromToml anyWorld sampleToml = .ok g ∧
    build anyWorld natParams g.toml = .ok b ∧ b.capacity = 12 ∧ b.intoConcurrent = true := by
  have hv : Valid anyWorld sampleToml := by
    refine wrapToml_valid (by simp [wrappers]) (exclusiveToml_valid (arrayToml_valid _ _)
      (wrapToml_valid (by simp [wrappers]) (groupToml_valid (by simp [groups]) ?_)))
    intro c hc
    simp only [List.mem_cons, List.not_mem_nil, or_false] at hc
    rcases hc with rfl | rfl
    · exact arrayToml_valid _ _
    · exact btreeToml_valid _ _
  obtain ⟨g, hg⟩ := (C45_accepts_iff _ _).2 hv
  have ha : Available anyWorld natParams sampleToml := by
    refine wrapToml_available (by simp [wrappers]) (exclusiveToml_available (arrayToml_available _ _ _)
      (wrapToml_available (by simp [wrappers]) (groupToml_available (by simp [groups]) ?_)))
    intro c hc
    simp only [List.mem_cons, List.not_mem_nil, or_false] at hc
    rcases hc with rfl | rfl
    · exact arrayToml_available _ _ _
    · exact btreeToml_available _ _ _
  obtain ⟨b, hb, hn⟩ := C45_config_builds _ natParams hg ha
  refine ⟨g, b, hg, hb, (hn 12).1 ?_, (C46_partial _ _ hg hb).2 ⟨_, rfl, rfl⟩⟩
  refine .wrapper (c := _) ⟨rfl, rfl⟩ (by simp [wrappers]) rfl
    (.exclusive (m := 3) (n := 9) ⟨rfl, rfl⟩ rfl rfl (.leaf ⟨rfl, rfl⟩ (by simp) rfl)
      (.wrapper ⟨rfl, rfl⟩ (by simp [wrappers]) rfl
        (.group ⟨rfl, rfl⟩ (by simp [groups]) rfl ?_)))
  exact .cons (m := 4) (n := 5) (.leaf ⟨rfl, rfl⟩ (by simp) rfl)
    (.cons (m := 5) (n := 0) (.leaf ⟨rfl, rfl⟩ (by simp) rfl) .nil)

/-- `Profiler` over `Sequential`: concurrent, but refused. -/
def profiledToml : Toml := wrapToml "ProfilerConfig" (wrapToml "SequentialConfig" (arrayToml 2))

/-- **C46 is false of the code.** -/
theorem C46_false : ¬ C46_full := by
  intro h
  have hv : Valid anyWorld profiledToml := wrapToml_valid (by simp [wrappers])
    (wrapToml_valid (by simp [wrappers]) (arrayToml_valid _ _))
  obtain ⟨g, hg⟩ := (C45_accepts_iff _ _).2 hv
  have ha : Available anyWorld natParams profiledToml := wrapToml_available (by simp [wrappers])
    (wrapToml_available (by simp [wrappers]) (arrayToml_available _ _ _))
  obtain ⟨b, hb, -⟩ := C45_config_builds _ natParams hg ha
  have hc : Concurrent profiledToml := .wrapper ⟨rfl, rfl⟩ (by simp) rfl (.sequential ⟨rfl, rfl⟩)
  have h1 := (h Nat Nat _ _ _ _ g b hg hb).2 hc
  have h2 := C46_nested_refused (c := profiledToml) anyWorld natParams hg hb
    (.inl ⟨"ProfilerConfig", by simp, ⟨rfl, rfl⟩⟩)
  rw [h1] at h2
  cases h2

/-! ## C61 -/

/-- No configuration with this `id`, at any depth. -/
def No (id : String) (v : Toml) : Prop := ∀ c t, Within c v → ¬ IsA c id t

/-- The leaves are Arrays. -/
def OnlyArrays (v : Toml) : Prop :=
  ∀ id ∈ ["BTreeConfig", "StreamConfig", "CompressedConfig", "SocketClientConfig"], No id v

/-- Every `Associative` has at least one container. -/
def NoEmptyAssociative (v : Toml) : Prop :=
  ∀ c t, Within c v → IsA c "AssociativeConfig" t → t.lookup "container" ≠ some (.arr [])

/-- Nothing in the history panics, the capacity stays, the size is within it; followed by a `flush`
(with `fl`: if no level stops it), everything pushed has been given back, exactly. -/
def Serves {B : Block K V} (s : B.State) (fl : Prop) (ops : List (Op K V)) : Prop :=
  ∃ out s', B.run s ops = .ok (out, s') ∧ B.capacity s' = B.capacity s ∧ B.size s' ≤ B.capacity s ∧
    (fl → ∃ last s'', B.flush s' = .ok (last, s'') ∧ (last ++ out).Perm (ops.flatMap Op.given))

/-- **C61, full statement.** Whatever calls are made on the container built from an accepted
configuration, none panics, its capacity stays the same, its size is within it, and a last `flush`
gives back exactly what was pushed and not given back yet.  False of the code, see `C61_false`. -/
def C61_full : Prop := ∀ (K V : Type) (_ : LinearOrder K) (w : World) (P : Params K V) (v : Toml)
  (g : Generic) (b : Built K V), fromToml w v = .ok g → build w P g.toml = .ok b →
    ∀ ops : List (Op K V), Serves b.state (No "FlushStopperConfig" v) ops

theorem good_of_build (w : World) (P : Params K V) {v : Toml} {b : Built K V}
    (hb : build w P v = .ok b) (h1 : OnlyArrays v) (h2 : NoEmptyAssociative v) :
    Good (No "AssociativeConfig" v) (No "FlushStopperConfig" v) b := by
  revert b
  refine nested_induction (w := w) (motive := fun v => OnlyArrays v → NoEmptyAssociative v →
    ∀ {b}, build w P v = .ok b → Good (No "AssociativeConfig" v) (No "FlushStopperConfig" v) b) ?_ v h1 h2
  clear h1 h2 v
  intro v ih h1 h2 b hb
  obtain ⟨t, id, cfg, gs, bs, rfl, hid, hp, hgs, hbs, ha⟩ := build_iff.1 hb
  have hi := isA_table hid
  have hsub : ∀ x ∈ cfg.children, ∀ c, Within c x → Within c (.table t) :=
    fun x hx c hc => (within_iff hid hp).2 (.inr ⟨x, hx, hc⟩)
  have hno : ∀ x ∈ cfg.children, ∀ id, No id (.table t) → No id x :=
    fun x hx id h c t' hc => h c t' (hsub x hx c hc)
  have hch : ∀ x ∈ cfg.children, ∀ b, build w P x = .ok b →
      Good (No "AssociativeConfig" (.table t)) (No "FlushStopperConfig" (.table t)) b := by
    intro x hx b hb
    refine Good.mono (ih t id cfg rfl hp x hx (fun i hm => hno x hx i (h1 i hm))
      (fun c t' hc => h2 c t' (hsub x hx c hc)) hb) (hno x hx _) (hno x hx _)
  have hall : ∀ b ∈ bs, Good (No "AssociativeConfig" (.table t)) (No "FlushStopperConfig" (.table t)) b := by
    clear ha hgs
    generalize cfg.children = l at hbs hch
    induction hbs with
    | nil => simp
    | cons h _ ih2 =>
      intro b hb
      rcases List.mem_cons.1 hb with rfl | hb
      · exact hch _ List.mem_cons_self _ h
      · exact ih2 (fun x hx => hch x (List.mem_cons_of_mem _ hx)) b hb
  have hlen := hbs.length_eq
  cases parse_iff.1 hp with
  | array h =>
    cases ha
    exact .new (Array.lawful _ _ _).toCore (fun _ => Array.lawful _ _ _)
      (fun _ s _ => ⟨_, _, rfl, rfl, List.Perm.refl _⟩) (Array.new_inv _ _) rfl
  | btree => exact absurd hi (h1 "BTreeConfig" (by simp) _ _ .self)
  | stream => exact absurd hi (h1 "StreamConfig" (by simp) _ _ .self)
  | compressed => exact absurd hi (h1 "CompressedConfig" (by simp) _ _ .self)
  | socketClient => exact absurd hi (h1 "SocketClientConfig" (by simp) _ _ .self)
  | batch h => cases ha; exact .batch hall
  | @associative l h =>
    cases ha
    refine (Good.associative ?_ hall).mono (fun hn => hn _ _ .self hi) id
    rintro rfl
    cases hbs
    exact h2 _ _ .self hi h
  | exclusive =>
    match bs, hlen with
    | [x, y], _ => cases ha; exact .exclusive (hall _ (by simp)) (hall _ (by simp))
  | flushStopper =>
    match bs, hlen with
    | [x], _ => cases ha; exact (Good.flushStopper (hall _ (by simp))).mono id fun hn => hn _ _ .self hi
  | profiler =>
    match bs, hlen with
    | [x], _ => cases ha; exact .profiler (hall _ (by simp))
  | sequential =>
    match bs, hlen with
    | [x], _ => cases ha; exact .sequential (hall _ (by simp))

omit [LinearOrder K] in
theorem serves_of_good {na nf : Prop} {b : Built K V} (h : Good na nf b) (ops : List (Op K V))
    (ho : na ∨ ∀ op ∈ ops, op.NotPop) : Serves b.state nf ops := by
  obtain ⟨I, e, h1, -, h3, h4, h5, h6⟩ := h
  have key : ∃ out s', b.block.run b.state ops = .ok (out, s') ∧ I s' ∧
      b.block.size s' ≤ b.block.capacity s' ∧ b.block.capacity s' = b.block.capacity b.state ∧
      (e s' ++ out).Perm (e b.state ++ ops.flatMap Op.given) := by
    rcases ho with ho | ho
    · exact (h3 ho).run ops (fun op _ => ArrayProps.okTrue op) _ h5
    · exact h1.run ops (fun op hm => ⟨ArrayProps.okTrue op, ho op hm⟩) _ h5
  obtain ⟨out, s', r1, r2, r3, r4, r5⟩ := key
  refine ⟨out, s', r1, r4, r3.trans r4.le, fun hf => ?_⟩
  obtain ⟨last, s'', f1, -, f3⟩ := h4 hf s' r2
  rw [h6] at r5
  exact ⟨last, s'', f1, (f3.append_right out).trans (by simpa using r5)⟩

/-- **C61, proved part.** For configurations whose leaves are Arrays and whose `Associative` are not
empty: the full statement, except that with an `Associative` the calls do not include `pop` (see
C20). -/
theorem C61_partial (w : World) (P : Params K V) {v : Toml} {g : Generic} {b : Built K V}
    (hg : fromToml w v = .ok g) (hb : build w P g.toml = .ok b) (h1 : OnlyArrays v)
    (h2 : NoEmptyAssociative v) (ops : List (Op K V))
    (ho : No "AssociativeConfig" v ∨ ∀ op ∈ ops, op.NotPop) :
    Serves b.state (No "FlushStopperConfig" v) ops :=
  serves_of_good (good_of_build w P (fromToml_toml hg ▸ hb) h1 h2) ops ho

/-- **C61, proved part, with a decorator** (`ConfigBuilder`). -/
theorem C61_partial_builder (w : World) (P : DParams K V) {v : Toml} {b : Builder} {c : Built K V}
    (h : builderFromToml w v = .ok b) (hc : builderBuild w P b = .ok c) (h1 : OnlyArrays v)
    (h2 : NoEmptyAssociative v) (ops : List (Op K V))
    (ho : No "AssociativeConfig" v ∨ ∀ op ∈ ops, op.NotPop) :
    Serves c.state (No "FlushStopperConfig" v) ops := by
  have h' : fromToml w v = .ok b.config := by
    unfold builderFromToml at h
    split at h
    · simp only [bind, Except.bind, pure, Except.pure] at h
      split at h
      · cases h
      · split at h
        · cases h
        · next hg => cases h; exact hg
    · cases h
  have ht := fromToml_toml h'
  refine serves_of_good ?_ ops ho
  unfold builderBuild at hc
  rw [ht] at hc
  split at hc
  · exact good_of_build w _ hc h1 h2
  all_goals
    simp only [bind, Res.bind] at hc
    split at hc
    · next x hx =>
      cases hc
      exact .decorator _ (fun _ _ => rfl) (good_of_build w _ hx h1 h2)
    · cases hc

/-- `Associative` over nothing. -/
def emptyToml : Toml := groupToml "AssociativeConfig" []

/-- **C61 is false of the code.**  `AssociativeConfig` with no container is accepted, builds, says it
can be shared, and the first `push` divides by zero. -/
theorem C61_empty_associative (w : World) (P : Params K V) :
    ∃ g b, fromToml w emptyToml = .ok g ∧ build w P g.toml = .ok b ∧ b.intoConcurrent = true ∧
      ∀ e, b.block.push b.state [e] = .panic := by
  have hv : Valid w emptyToml := groupToml_valid (by simp [groups]) (by simp)
  obtain ⟨g, hg⟩ := (C45_accepts_iff _ _).2 hv
  have ha : Available w P emptyToml := groupToml_available (by simp [groups]) (by simp)
  obtain ⟨b, hb, -⟩ := C45_config_builds _ P hg ha
  refine ⟨g, b, hg, hb, (C46_flag_iff w P hg hb).2 (.inr ⟨_, ⟨rfl, rfl⟩, rfl⟩), ?_⟩
  rw [fromToml_toml hg] at hb
  obtain ⟨t, id, cfg, gs, bs, ht, hid, hp, hgs, hbs, ha⟩ := build_iff.1 hb
  cases ht
  cases hid
  obtain ⟨l, rfl, hl⟩ := (parse_iff.1 hp).associative_inv
  cases hl
  cases hbs
  cases ha
  intro e
  rfl

theorem C61_false : ¬ C61_full := by
  intro h
  obtain ⟨g, b, hg, hb, -, hp⟩ := C61_empty_associative anyWorld natParams
  obtain ⟨out, s', h1, -⟩ := h Nat Nat _ _ _ _ g b hg hb [.push [(0, 0)]]
  simp [Block.run, Block.step, hp] at h1

theorem no_iff {w : World} {t : Fields} {id id' : String} {cfg : Cfg}
    (hid : t.lookup "id" = some (.str id)) (hp : parse w id t = .ok cfg) :
    No id' (.table t) ↔ id ≠ id' ∧ ∀ x ∈ cfg.children, No id' x := by
  constructor
  · intro h
    refine ⟨fun he => h _ t .self (he ▸ isA_table hid), fun x hx c t' hc => h c t' ((within_iff hid hp).2 (.inr ⟨x, hx, hc⟩))⟩
  · rintro ⟨h1, h2⟩ c t' hc hi
    rcases (within_iff hid hp).1 hc with rfl | ⟨x, hx, hc⟩
    · exact h1 ((isA_table hid).unique hi).2
    · exact h2 x hx c t' hc hi

theorem noEmpty_iff {w : World} {t : Fields} {id : String} {cfg : Cfg}
    (hid : t.lookup "id" = some (.str id)) (hp : parse w id t = .ok cfg) :
    NoEmptyAssociative (.table t) ↔
      (id = "AssociativeConfig" → t.lookup "container" ≠ some (.arr [])) ∧
        ∀ x ∈ cfg.children, NoEmptyAssociative x := by
  constructor
  · intro h
    exact ⟨fun he => h _ t .self (he ▸ isA_table hid), fun x hx c t' hc => h c t' ((within_iff hid hp).2 (.inr ⟨x, hx, hc⟩))⟩
  · rintro ⟨h1, h2⟩ c t' hc hi
    rcases (within_iff hid hp).1 hc with rfl | ⟨x, hx, hc⟩
    · obtain ⟨rfl, h⟩ := (isA_table hid).unique hi
      exact h1 h
    · exact h2 x hx c t' hc hi

/-- An `Exclusive` of an `Array` over an `Associative` of two `Array`. -/
def setsToml : Toml := exclusiveToml (arrayToml 1) (groupToml "AssociativeConfig" [arrayToml 2, arrayToml 2])

/-- The hypotheses of C61 are met: everything pushed and evicted or flushed comes back. -/
theorem C61_example (ops : List (Op Nat Nat)) (ho : ∀ op ∈ ops, op.NotPop) :
    ∃ g b, fromToml anyWorld setsToml = .ok g ∧ build anyWorld natParams g.toml = .ok b ∧
      b.capacity = 5 ∧ Serves b.state True ops := by
  have hv : Valid anyWorld setsToml := by
    refine exclusiveToml_valid (arrayToml_valid _ _) (groupToml_valid (by simp [groups]) ?_)
    simpa using arrayToml_valid _ _
  obtain ⟨g, hg⟩ := (C45_accepts_iff _ _).2 hv
  have ha : Available anyWorld natParams setsToml := by
    refine exclusiveToml_available (arrayToml_available _ _ _) (groupToml_available (by simp [groups]) ?_)
    simpa using arrayToml_available _ _ _
  obtain ⟨b, hb, hn⟩ := C45_config_builds _ natParams hg ha
  have no : ∀ id, "ExclusiveConfig" ≠ id → "AssociativeConfig" ≠ id → "ArrayConfig" ≠ id → No id setsToml := by
    intro id h1 h2 h3
    have ha : ∀ n, No id (arrayToml n) := fun n =>
      (no_iff (w := anyWorld) rfl (parse_iff.2 (.array rfl))).2 ⟨h3, by simp [Cfg.children]⟩
    refine (no_iff (w := anyWorld) rfl (parse_iff.2 (.exclusive rfl rfl))).2 ⟨h1, ?_⟩
    simp only [Cfg.children, List.mem_cons, List.not_mem_nil, or_false, forall_eq_or_imp, forall_eq]
    refine ⟨ha _, (no_iff (w := anyWorld) rfl (parse_iff.2 (.associative rfl))).2 ⟨h2, ?_⟩⟩
    simpa [Cfg.children] using ha 2
  have hne : NoEmptyAssociative setsToml := by
    have ha : ∀ n, NoEmptyAssociative (arrayToml n) := fun n =>
      (noEmpty_iff (w := anyWorld) rfl (parse_iff.2 (.array rfl))).2 ⟨by simp, by simp [Cfg.children]⟩
    refine (noEmpty_iff (w := anyWorld) rfl (parse_iff.2 (.exclusive rfl rfl))).2 ⟨by simp, ?_⟩
    simp only [Cfg.children, List.mem_cons, List.not_mem_nil, or_false, forall_eq_or_imp, forall_eq]
    refine ⟨ha _, (noEmpty_iff (w := anyWorld) rfl (parse_iff.2 (.associative rfl))).2 ⟨?_, ?_⟩⟩
    · simp [List.lookup]
    · simpa [Cfg.children] using ha 2
  refine ⟨g, b, hg, hb, (hn 5).1 ?_, ?_⟩
  · refine .exclusive (m := 1) (n := 4) ⟨rfl, rfl⟩ rfl rfl (.leaf ⟨rfl, rfl⟩ (by simp) rfl)
      (.group ⟨rfl, rfl⟩ (by simp [groups]) rfl ?_)
    exact .cons (m := 2) (n := 2) (.leaf ⟨rfl, rfl⟩ (by simp) rfl)
      (.cons (m := 2) (n := 0) (.leaf ⟨rfl, rfl⟩ (by simp) rfl) .nil)
  · obtain ⟨out, s', h1, h2, h3, h4⟩ := C61_partial anyWorld natParams hg hb
      (fun id hm => no id (by rintro rfl; simp at hm) (by rintro rfl; simp at hm) (by rintro rfl; simp at hm))
      hne ops (.inr ho)
    exact ⟨out, s', h1, h2, h3, fun _ => h4 (no _ (by simp) (by simp) (by simp))⟩

end ConfigProps
end Byoc
