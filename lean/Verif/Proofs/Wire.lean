import Verif.Model.Socket

/-!
# Messages survive the wire
-/

namespace Byoc.Socket

variable {α β K V : Type}

theorem Reads.ret (a : α) : Reads (.ret a) [] a := by
  refine ⟨fun _ => rfl, fun q hq hne => ?_⟩
  exact absurd (List.prefix_nil.1 hq) hne

/-- Reading one thing then another. -/
theorem Reads.andThen {p : Parser α} {f : α → Parser β} {bs cs : List Byte} {a : α} {b : β}
    (hp : Reads p bs a) (hf : Reads (f a) cs b) : Reads (p.andThen f) (bs ++ cs) b := by
  constructor
  · intro l
    simp only [Parser.andThen, List.append_assoc, hp.1]
    exact hf.1 l
  · intro q hq hne
    simp only [Parser.andThen]
    rcases Nat.lt_or_ge q.length bs.length with h | h
    · have hq' : q <+: bs := List.prefix_of_prefix_length_le hq (List.prefix_append bs cs) (Nat.le_of_lt h)
      rw [hp.2 q hq' (by rintro rfl; omega)]
    · have hb : bs <+: q := List.prefix_of_prefix_length_le (List.prefix_append bs cs) hq h
      obtain ⟨r, rfl⟩ := hb
      rw [hp.1]
      refine hf.2 r ?_ (by rintro rfl; exact hne rfl)
      obtain ⟨t, ht⟩ := hq
      rw [List.append_assoc] at ht
      exact ⟨t, List.append_cancel_left ht⟩

theorem Reads.byte (b : Byte) : Reads byteP [b] b := by
  refine ⟨fun _ => rfl, ?_⟩
  intro q hq hne
  cases q with
  | nil => rfl
  | cons x q =>
    obtain ⟨t, ht⟩ := hq
    simp only [List.cons_append, List.cons.injEq, List.append_eq_nil_iff] at ht
    obtain ⟨rfl, rfl, rfl⟩ := ht
    exact absurd rfl hne

theorem Reads.cast {p : Parser α} {bs cs : List Byte} {a b : α} (h : Reads p bs a) (e : bs = cs)
    (e' : a = b) : Reads p cs b := e ▸ e' ▸ h

theorem Reads.uint : ∀ (n v : Nat), v < 256 ^ n → Reads (uintP n) (uint n v) v
  | 0, v, h => by
    have : v = 0 := by simpa using h
    subst this
    exact Reads.ret 0
  | n + 1, v, h => by
    have hn : v / 256 < 256 ^ n := by
      rw [Nat.div_lt_iff_lt_mul (by decide)]
      rw [Nat.pow_succ] at h
      exact h
    have := (Reads.byte ⟨v % 256, Nat.mod_lt _ (by decide)⟩).andThen
      (f := fun b => (uintP n).andThen fun r => .ret (b.val + 256 * r))
      (((Reads.uint n (v / 256) hn).andThen (f := fun r => .ret (v % 256 + 256 * r)) (Reads.ret _)))
    refine this.cast (by simp [Byoc.Socket.uint]) ?_
    exact Nat.mod_add_div v 256

theorem Reads.times {p : Parser α} {e : α → List Byte} (h : ∀ a, Reads p (e a) a) :
    ∀ l : List α, Reads (timesP p l.length) (l.flatMap e) l
  | [] => Reads.ret []
  | a :: l => by
    have := (h a).andThen (f := fun a => (timesP p l.length).andThen fun l => .ret (a :: l))
      ((Reads.times h l).andThen (f := fun l => .ret (a :: l)) (Reads.ret _))
    exact this.cast (by simp) rfl

theorem Reads.vec {p : Parser α} {e : α → List Byte} (h : ∀ a, Reads p (e a) a) (l : List α)
    (hl : l.length < 2 ^ 64) : Reads (vecP p) (vec e l) l :=
  (Reads.uint 8 l.length (by simpa using hl)).andThen (Reads.times h l)

theorem Reads.pair {p : Parser α} {q : Parser β} {e : α → List Byte} {f : β → List Byte}
    (hp : ∀ a, Reads p (e a) a) (hq : ∀ a, Reads q (f a) a) (x : α × β) :
    Reads (pairP p q) (pair e f x) x := by
  have := (hp x.1).andThen (f := fun a => q.andThen fun b => .ret (a, b))
    ((hq x.2).andThen (f := fun b => .ret (x.1, b)) (Reads.ret _))
  exact this.cast (by simp [Byoc.Socket.pair]) rfl

/-- A tagged variant without fields. -/
theorem Reads.tag (t : Nat) (ht : t < 256 ^ 4) {f : Nat → Parser α} {cs : List Byte} {a : α}
    (h : Reads (f t) cs a) : Reads ((uintP 4).andThen f) (Byoc.Socket.uint 4 t ++ cs) a :=
  (Reads.uint 4 t ht).andThen h

theorem Reads.tag0 (t : Nat) (ht : t < 256 ^ 4) {f : Nat → Parser α} {a : α}
    (h : Reads (f t) [] a) : Reads ((uintP 4).andThen f) (Byoc.Socket.uint 4 t) a :=
  (Reads.tag t ht h).cast (by simp) rfl

theorem Reads.field {p : Parser α} {bs : List Byte} {a : α} (h : Reads p bs a) (g : α → β) :
    Reads (p.andThen fun x => .ret (g x)) bs (g a) :=
  (h.andThen (f := fun x => .ret (g x)) (Reads.ret _)).cast (by simp) rfl

/-- Every request is read back exactly. -/
theorem Request.reads {ck : Codec K} {cv : Codec V} (hk : ck.Lawful) (hv : cv.Lawful)
    (r : Request K V) (hr : r.fits = true) : Reads (Request.dec ck cv) (r.enc ck cv) r := by
  have hp := Reads.pair hk hv
  cases r with
  | capacity => exact Reads.tag0 0 (by decide) (Reads.ret _)
  | size => exact Reads.tag0 1 (by decide) (Reads.ret _)
  | contains k => exact Reads.tag 2 (by decide) ((hk k).field _)
  | take k => exact Reads.tag 3 (by decide) ((hk k).field _)
  | takeMultiple ks => exact Reads.tag 4 (by decide) ((Reads.vec hk ks (by simpa [Request.fits] using hr)).field _)
  | pop n => exact Reads.tag 5 (by decide) ((Reads.uint 8 n (by simpa [Request.fits] using hr)).field _)
  | push l => exact Reads.tag 6 (by decide) ((Reads.vec hp l (by simpa [Request.fits] using hr)).field _)
  | flush => exact Reads.tag0 7 (by decide) (Reads.ret _)

theorem Reads.bool (b : Bool) : Reads boolP [if b then 1 else 0] b := by
  cases b
  · exact ((Reads.byte 0).andThen (f := fun b => if b = 0 then .ret false else if b = 1 then .ret true else .fail)
      (Reads.ret _)).cast rfl rfl
  · exact ((Reads.byte 1).andThen (f := fun b => if b = 0 then .ret false else if b = 1 then .ret true else .fail)
      (Reads.ret _)).cast rfl rfl

theorem Reads.none {p : Parser α} : Reads (optionP p) [0] Option.none :=
  ((Reads.byte 0).andThen (f := fun b => if b = 0 then .ret Option.none else if b = 1 then
    p.andThen fun a => .ret (some a) else .fail) (Reads.ret _)).cast rfl rfl

theorem Reads.some {p : Parser α} {bs : List Byte} {a : α} (h : Reads p bs a) :
    Reads (optionP p) (1 :: bs) (Option.some a) :=
  ((Reads.byte 1).andThen (f := fun b => if b = 0 then .ret Option.none else if b = 1 then
    p.andThen fun a => .ret (Option.some a) else .fail) (h.field Option.some)).cast rfl rfl

theorem Reads.error (e : BincodeErrorKind) : Reads errorP (Byoc.Socket.uint 4 0 ++ Byoc.Socket.uint 4 e.tag) e := by
  refine Reads.tag 0 (by decide) ?_
  cases e
  · exact Reads.tag0 0 (by decide) (Reads.ret _)
  · exact Reads.tag0 1 (by decide) (Reads.ret _)
  · exact Reads.tag0 2 (by decide) (Reads.ret _)
  · exact Reads.tag0 3 (by decide) (Reads.ret _)

/-- Every response is read back exactly. -/
theorem Response.reads {ck : Codec K} {cv : Codec V} (hk : ck.Lawful) (hv : cv.Lawful)
    (r : Response K V) (hr : r.fits = true) : Reads (Response.dec ck cv) (r.enc ck cv) r := by
  have hp := Reads.pair hk hv
  cases r with
  | capacity n => exact Reads.tag 0 (by decide) ((Reads.uint 8 n (by simpa [Response.fits] using hr)).field _)
  | size n => exact Reads.tag 1 (by decide) ((Reads.uint 8 n (by simpa [Response.fits] using hr)).field _)
  | contains b => exact Reads.tag 2 (by decide) ((Reads.bool b).field _)
  | take o =>
    cases o with
    | none => exact Reads.tag 3 (by decide) (Reads.none.field _)
    | some e => exact Reads.tag 3 (by decide) ((Reads.some (hp e)).field _)
  | takeMultiple l => exact Reads.tag 4 (by decide) ((Reads.vec hp l (by simpa [Response.fits] using hr)).field _)
  | pop l => exact Reads.tag 5 (by decide) ((Reads.vec hp l (by simpa [Response.fits] using hr)).field _)
  | push l => exact Reads.tag 6 (by decide) ((Reads.vec hp l (by simpa [Response.fits] using hr)).field _)
  | flush l => exact Reads.tag 7 (by decide) ((Reads.vec hp l (by simpa [Response.fits] using hr)).field _)
  | error e => exact Reads.tag 8 (by decide) ((Reads.error e).field _)

theorem u8_lawful : u8.Lawful := Reads.byte

theorem uint_ne_nil (n v : Nat) : uint (n + 1) v ≠ [] := by simp [uint]

theorem Request.enc_ne_nil (ck : Codec K) (cv : Codec V) (r : Request K V) : r.enc ck cv ≠ [] := by
  cases r <;> simp [Request.enc, uint]

theorem Response.enc_ne_nil (ck : Codec K) (cv : Codec V) (r : Response K V) : r.enc ck cv ≠ [] := by
  cases r with
  | take o => cases o <;> simp [Response.enc, uint]
  | _ => simp [Response.enc, uint]

end Byoc.Socket
