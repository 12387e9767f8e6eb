import Verif.Model.Config

/-! # Proofs about configurations -/

namespace Byoc
namespace Config

open List

variable {K V : Type} [LinearOrder K]

theorem mapM_except {α β : Type} {ε : Type} (f : α → Except ε β) (l : List α) (ys : List β) :
    l.mapM f = .ok ys ↔ Forall₂ (fun x y => f x = .ok y) l ys := by
  induction l generalizing ys with
  | nil =>
    simp only [List.mapM_nil, forall₂_nil_left_iff]
    constructor
    · intro h; cases h; rfl
    · rintro rfl; rfl
  | cons x l ih =>
    rw [List.mapM_cons]
    simp only [bind, Except.bind, pure, Except.pure]
    constructor
    · intro h
      split at h
      · cases h
      · next y hy =>
        split at h
        · cases h
        · next ys' hys => cases h; exact .cons hy ((ih _).1 hys)
    · intro h
      cases h with
      | cons h1 h2 => rw [h1]; simp only; rw [(ih _).2 h2]

theorem mapM_res {α : Type} {β : Type u} (f : α → Res β) (l : List α) (ys : List β) :
    l.mapM f = .ok ys ↔ Forall₂ (fun x y => f x = .ok y) l ys := by
  induction l generalizing ys with
  | nil =>
    simp only [List.mapM_nil, forall₂_nil_left_iff]
    constructor
    · intro h; cases h; rfl
    · rintro rfl; rfl
  | cons x l ih =>
    rw [List.mapM_cons]
    constructor
    · intro h
      cases hx : f x with
      | panic => rw [hx] at h; cases h
      | ok y =>
        rw [hx] at h
        cases hl : l.mapM f with
        | panic => rw [hl] at h; cases h
        | ok ys' => rw [hl] at h; cases h; exact .cons hx ((ih _).1 hl)
    · intro h
      cases h with
      | cons h1 h2 => rw [h1, (ih _).2 h2]; rfl

theorem mapM_attach {m : Type u → Type v} [Monad m] [LawfulMonad m] {α : Type} {β : Type u} (l : List α) (f : α → m β) :
    (l.attach.mapM fun c => f c.1) = l.mapM f := by
  conv_rhs => rw [← List.attach_map_subtype_val l]
  rw [List.mapM_map]
  rfl

/-- The equation of `fromToml` without the bookkeeping of the recursion. -/
theorem fromToml_table (w : World) (t : Fields) :
    fromToml w (.table t) =
      match t.lookup "id" with
      | none => .error .format
      | some (.str id) =>
        match parse w id t with
        | .error e => .error e
        | .ok cfg => do
          let gs ← cfg.children.mapM (fromToml w)
          return ⟨cfg.isConcurrent gs, .table t⟩
      | some _ => .error .format := by
  rw [fromToml]
  cases h : t.lookup "id" with
  | none => rfl
  | some x =>
    cases x with
    | str id =>
      simp only
      split
      · next hp => rw [hp]
      · next cfg hp =>
        rw [hp]
        simp only
        rw [mapM_attach cfg.children (fromToml w)]
    | _ => rfl

theorem fromToml_iff {w : World} {v : Toml} {g : Generic} :
    fromToml w v = .ok g ↔ ∃ t id cfg gs, v = .table t ∧ t.lookup "id" = some (.str id) ∧
      parse w id t = .ok cfg ∧ Forall₂ (fun c g => fromToml w c = .ok g) cfg.children gs ∧
      g = ⟨cfg.isConcurrent gs, v⟩ := by
  cases v with
  | table t =>
    rw [fromToml_table]
    constructor
    · intro h
      split at h
      · cases h
      · next id hid =>
        split at h
        · cases h
        · next cfg hp =>
          simp only [bind, Except.bind, pure, Except.pure] at h
          split at h
          · cases h
          · next gs hgs =>
            cases h
            exact ⟨t, id, cfg, gs, rfl, hid, hp, (mapM_except _ _ _).1 hgs, rfl⟩
      · cases h
    · rintro ⟨t', id, cfg, gs, ht, hid, hp, hgs, rfl⟩
      cases ht
      rw [hid]
      simp only
      rw [hp]
      simp only [(mapM_except _ _ _).2 hgs]
      rfl
  | _ =>
    rw [fromToml.eq_def]
    simp

theorem build_table (w : World) (P : Params K V) (t : Fields) :
    build w P (.table t) =
      match t.lookup "id" with
      | some (.str id) =>
        match parse w id t with
        | .error _ => .panic
        | .ok cfg =>
          match cfg.children.mapM (fromToml w) with
          | .error _ => .panic
          | .ok gs => do
            let bs ← cfg.children.mapM (build w P)
            assemble w P cfg (cfg.isConcurrent gs) bs
      | _ => .panic := by
  rw [build]
  cases h : t.lookup "id" with
  | none => rfl
  | some x =>
    cases x with
    | str id =>
      simp only
      split
      · next hp => rw [hp]
      · next cfg hp =>
        rw [hp]
        simp only
        rw [mapM_attach cfg.children (build w P)]
        cases cfg.children.mapM (fromToml w) <;> rfl
    | _ => rfl

theorem build_iff {w : World} {P : Params K V} {v : Toml} {b : Built K V} :
    build w P v = .ok b ↔ ∃ t id cfg gs bs, v = .table t ∧ t.lookup "id" = some (.str id) ∧
      parse w id t = .ok cfg ∧ Forall₂ (fun c g => fromToml w c = .ok g) cfg.children gs ∧
      Forall₂ (fun c b => build w P c = .ok b) cfg.children bs ∧
      assemble w P cfg (cfg.isConcurrent gs) bs = .ok b := by
  cases v with
  | table t =>
    rw [build_table]
    constructor
    · intro h
      split at h
      · next id hid =>
        split at h
        · cases h
        · next cfg hp =>
          split at h
          · cases h
          · next gs hgs =>
            cases hb : cfg.children.mapM (build w P) with
            | panic => rw [hb] at h; cases h
            | ok bs =>
              rw [hb] at h
              exact ⟨t, id, cfg, gs, bs, rfl, hid, hp, (mapM_except _ _ _).1 hgs,
                (mapM_res _ _ _).1 hb, h⟩
      · cases h
    · rintro ⟨t', id, cfg, gs, bs, ht, hid, hp, hgs, hbs, h⟩
      cases ht
      rw [hid]
      simp only
      rw [hp]
      simp only [(mapM_except _ _ _).2 hgs, (mapM_res _ _ _).2 hbs]
      exact h
  | _ =>
    rw [build.eq_def]
    simp

theorem orErr_ok {α : Type} {e : CfgErr} {o : Option α} {a : α} : orErr e o = .ok a ↔ o = some a := by
  cases o <;> simp [orErr]

theorem usize_iff {t : Fields} {name : String} {n : Nat} :
    usize t name = some n ↔ t.lookup name = some (.int n) := by
  unfold usize
  split
  · next m hm =>
    rw [hm]
    split
    · next h =>
      simp only [Option.some.injEq, Toml.int.injEq]
      omega
    · next h =>
      simp only [reduceCtorEq, Option.some.injEq, Toml.int.injEq, false_iff]
      omega
  · next h =>
    simp only [reduceCtorEq, false_iff]
    intro h'
    exact h _ h'

theorem array_iff {t : Fields} {name : String} {l : List Toml} :
    array t name = some l ↔ t.lookup name = some (.arr l) := by
  unfold array
  split
  · next m hm => simp [hm]
  · next h =>
    simp only [reduceCtorEq, false_iff]
    intro h'
    exact h _ h'

theorem string_iff {t : Fields} {name : String} {l : String} :
    string t name = some l ↔ t.lookup name = some (.str l) := by
  unfold string
  split
  · next m hm => simp [hm]
  · next h =>
    simp only [reduceCtorEq, false_iff]
    intro h'
    exact h _ h'

theorem optString_iff {t : Fields} {name : String} {f : Option String} :
    optString t name = some f ↔ t.lookup name = f.map .str := by
  unfold optString
  split
  · next h => rw [h]; cases f <;> simp
  · next s h => rw [h]; cases f <;> simp
  · next x h1 h2 =>
    rw [h2]
    cases f with
    | none => simp
    | some s =>
      simp only [reduceCtorEq, Option.map_some, Option.some.injEq, false_iff]
      exact h1 s

/-- What `parse` reads, field by field. -/
inductive Parsed (w : World) (t : Fields) : String → Cfg → Prop
  | array {n : Nat} : t.lookup "capacity" = some (.int n) → Parsed w t "ArrayConfig" (.array n)
  | btree {n : Nat} : t.lookup "capacity" = some (.int n) → Parsed w t "BTreeConfig" (.btree n)
  | stream {n : Nat} : t.lookup "capacity" = some (.int n) → Parsed w t "StreamConfig" (.stream n)
  | compressed {n : Nat} {f : Option String} : t.lookup "capacity" = some (.int n) →
      t.lookup "filename" = f.map .str → Parsed w t "CompressedConfig" (.compressed f n)
  | associative {l} : t.lookup "container" = some (.arr l) → Parsed w t "AssociativeConfig" (.associative l)
  | batch {l} : t.lookup "container" = some (.arr l) → Parsed w t "BatchConfig" (.batch l)
  | exclusive {f b} : t.lookup "front" = some f → t.lookup "back" = some b →
      Parsed w t "ExclusiveConfig" (.exclusive f b)
  | flushStopper {c} : t.lookup "container" = some c → Parsed w t "FlushStopperConfig" (.flushStopper c)
  | profiler {c} : t.lookup "container" = some c → Parsed w t "ProfilerConfig" (.profiler c)
  | sequential {c} : t.lookup "container" = some c → Parsed w t "SequentialConfig" (.sequential c)
  | socketClient {a} : t.lookup "address" = some (.str a) → w.resolves a = true →
      Parsed w t "SocketClientConfig" (.socketClient a)

theorem parse_iff {w : World} {t : Fields} {id : String} {cfg : Cfg} :
    parse w id t = .ok cfg ↔ Parsed w t id cfg := by
  constructor
  · intro h
    unfold parse at h
    split at h <;> (try simp only [bind, Except.bind, pure, Except.pure] at h) <;>
      (try split at h) <;> (try split at h) <;> (try cases h)
    · next h1 => exact .array (usize_iff.1 (orErr_ok.1 h1))
    · next h1 => exact .associative (array_iff.1 (orErr_ok.1 h1))
    · next h1 => exact .batch (array_iff.1 (orErr_ok.1 h1))
    · next h1 => exact .btree (usize_iff.1 (orErr_ok.1 h1))
    · next h1 _ _ h2 =>
      exact .compressed (usize_iff.1 (orErr_ok.1 h2)) (optString_iff.1 (orErr_ok.1 h1))
    · next h1 _ _ h2 => exact .exclusive (orErr_ok.1 h1) (orErr_ok.1 h2)
    · next h1 => exact .flushStopper (orErr_ok.1 h1)
    · next h1 => exact .profiler (orErr_ok.1 h1)
    · next h1 => exact .sequential (orErr_ok.1 h1)
    · next h1 h2 => exact .socketClient (string_iff.1 (orErr_ok.1 h1)) h2
    · next h1 => exact .stream (usize_iff.1 (orErr_ok.1 h1))
  · intro h
    cases h with
    | array h => unfold parse; rw [orErr_ok.2 (usize_iff.2 h)]; rfl
    | btree h => unfold parse; rw [orErr_ok.2 (usize_iff.2 h)]; rfl
    | stream h => unfold parse; rw [orErr_ok.2 (usize_iff.2 h)]; rfl
    | compressed h h2 =>
      unfold parse; rw [orErr_ok.2 (usize_iff.2 h), orErr_ok.2 (optString_iff.2 h2)]; rfl
    | associative h => unfold parse; rw [orErr_ok.2 (array_iff.2 h)]; rfl
    | batch h => unfold parse; rw [orErr_ok.2 (array_iff.2 h)]; rfl
    | exclusive h h2 => unfold parse; rw [orErr_ok.2 h, orErr_ok.2 h2]; rfl
    | flushStopper h => unfold parse; rw [orErr_ok.2 h]; rfl
    | profiler h => unfold parse; rw [orErr_ok.2 h]; rfl
    | sequential h => unfold parse; rw [orErr_ok.2 h]; rfl
    | socketClient h h2 =>
      unfold parse
      rw [orErr_ok.2 (string_iff.2 h)]
      simp only [bind, Except.bind, pure, Except.pure, h2, if_true]

/-! Inversion of `Parsed` by `id`. -/

theorem Parsed.exclusive_inv {w : World} {t : Fields} {cfg : Cfg} (h : Parsed w t "ExclusiveConfig" cfg) :
    ∃ f b, cfg = .exclusive f b ∧ t.lookup "front" = some f ∧ t.lookup "back" = some b := by
  generalize hid : "ExclusiveConfig" = id at h
  cases h with
  | exclusive h0 h1 => exact ⟨_, _, rfl, h0, h1⟩
  | _ => simp at hid

theorem Parsed.associative_inv {w : World} {t : Fields} {cfg : Cfg} (h : Parsed w t "AssociativeConfig" cfg) :
    ∃ l, cfg = .associative l ∧ t.lookup "container" = some (.arr l) := by
  generalize hid : "AssociativeConfig" = id at h
  cases h with
  | associative h0 => exact ⟨_, rfl, h0⟩
  | _ => simp at hid

theorem Parsed.batch_inv {w : World} {t : Fields} {cfg : Cfg} (h : Parsed w t "BatchConfig" cfg) :
    ∃ l, cfg = .batch l ∧ t.lookup "container" = some (.arr l) := by
  generalize hid : "BatchConfig" = id at h
  cases h with
  | batch h0 => exact ⟨_, rfl, h0⟩
  | _ => simp at hid

theorem Parsed.flushStopper_inv {w : World} {t : Fields} {cfg : Cfg} (h : Parsed w t "FlushStopperConfig" cfg) :
    ∃ l, cfg = .flushStopper l ∧ t.lookup "container" = some l := by
  generalize hid : "FlushStopperConfig" = id at h
  cases h with
  | flushStopper h0 => exact ⟨_, rfl, h0⟩
  | _ => simp at hid

theorem Parsed.profiler_inv {w : World} {t : Fields} {cfg : Cfg} (h : Parsed w t "ProfilerConfig" cfg) :
    ∃ l, cfg = .profiler l ∧ t.lookup "container" = some l := by
  generalize hid : "ProfilerConfig" = id at h
  cases h with
  | profiler h0 => exact ⟨_, rfl, h0⟩
  | _ => simp at hid

theorem Parsed.sequential_inv {w : World} {t : Fields} {cfg : Cfg} (h : Parsed w t "SequentialConfig" cfg) :
    ∃ l, cfg = .sequential l ∧ t.lookup "container" = some l := by
  generalize hid : "SequentialConfig" = id at h
  cases h with
  | sequential h0 => exact ⟨_, rfl, h0⟩
  | _ => simp at hid

theorem Parsed.socketClient_inv {w : World} {t : Fields} {cfg : Cfg} (h : Parsed w t "SocketClientConfig" cfg) :
    ∃ a, cfg = .socketClient a ∧ t.lookup "address" = some (.str a) ∧ w.resolves a = true := by
  generalize hid : "SocketClientConfig" = id at h
  cases h with
  | socketClient h0 h1 => exact ⟨_, rfl, h0, h1⟩
  | _ => simp at hid

theorem Parsed.compressed_inv {w : World} {t : Fields} {cfg : Cfg} (h : Parsed w t "CompressedConfig" cfg) :
    ∃ (f : Option String) (n : Nat), cfg = .compressed f n ∧ t.lookup "capacity" = some (.int n) ∧ t.lookup "filename" = f.map .str := by
  generalize hid : "CompressedConfig" = id at h
  cases h with
  | compressed h0 h1 => exact ⟨_, _, rfl, h0, h1⟩
  | _ => simp at hid

/-- Induction on a configuration through its nested configurations. -/
theorem nested_induction {w : World} {motive : Toml → Prop}
    (step : ∀ v, (∀ t id cfg, v = .table t → parse w id t = .ok cfg → ∀ c ∈ cfg.children, motive c) →
      motive v) (v : Toml) : motive v := by
  induction hn : sizeOf v using Nat.strong_induction_on generalizing v with
  | _ n ih =>
    refine step v fun t id cfg hv hp c hc => ?_
    have := parse_children hp hc
    subst hv
    exact ih _ (hn ▸ this) c rfl

/-- `fromToml` of a valid configuration keeps the value it was given. -/
theorem fromToml_toml {w : World} {v : Toml} {g : Generic} (h : fromToml w v = .ok g) : g.toml = v := by
  obtain ⟨_, _, _, _, _, _, _, _, rfl⟩ := fromToml_iff.1 h
  rfl

omit [LinearOrder K] in
theorem states_map {l : List (Built K V)} {α : Type} (f : (Built.all l).State → α) :
    (Built.states l).map f = List.ofFn fun i : Fin l.length => f ⟨i, (l.get i).state⟩ := by
  exact List.map_ofFn ..

omit [LinearOrder K] in
theorem capacity_states (l : List (Built K V)) :
    ((Built.states l).map (Built.all l).capacity).sum = (l.map Built.capacity).sum := by
  rw [states_map]
  congr 1
  conv_rhs => rw [← List.ofFn_get l, List.map_ofFn]
  rfl

end Config
end Byoc
