import Verif.Lemmas.AnyTy
import Verif.Props.RoundTrip

/-!
# Decoding bytes nobody vouches for: properties C18, C19, C20, C22

Bytes need not come from the encoder here.
-/

namespace Steit
open Spec

/-! ## C18 -/

/-- C18 as first written: decoding any bytes into any type ends with a value or an io error, without a panic. It is false
(`C18_false_debug`, `C18_false_release`). -/
def C18Statement (m : Mode) : Prop :=
  ∀ (t : Ty), t.WF → ∀ bs : Bytes, (∃ v rest, t.dict.deserialize m bs = .ok (v, rest)) ∨
    t.dict.deserialize m bs = .error .unexpectedEof ∨ t.dict.deserialize m bs = .error .invalidData

/-- In a debug build a three byte varint read as `u8` panics. -/
theorem C18_false_debug : ¬ C18Statement .debug := by
  intro h
  have h1 := h (.uint .w8) trivial [0x80#8, 0x80#8, 0x00#8]
  have h2 : (Ty.uint .w8).dict.deserialize .debug [0x80#8, 0x80#8, 0x00#8] = .error .panic := by decide
  rw [h2] at h1
  rcases h1 with ⟨v, rest, h1⟩ | h1 | h1 <;> cases h1

/-- In every build an unknown field that declares 2^63 bytes panics. -/
theorem C18_false_release : ¬ C18Statement .release := by
  intro h
  have h1 := h (.struct false true .nil) ⟨List.nodup_nil, trivial⟩
    [0x0a#8, 0x80#8, 0x80#8, 0x80#8, 0x80#8, 0x80#8, 0x80#8, 0x80#8, 0x80#8, 0x80#8, 0x01#8]
  have h2 : (Ty.struct false true .nil).dict.deserialize .release
      [0x0a#8, 0x80#8, 0x80#8, 0x80#8, 0x80#8, 0x80#8, 0x80#8, 0x80#8, 0x80#8, 0x80#8, 0x01#8] = .error .panic := by decide
  rw [h2] at h1
  rcases h1 with ⟨v, rest, h1⟩ | h1 | h1 <;> cases h1

/-- What is true of C18: for every type, every target (not only a fresh one) and every input, merging terminates. It
succeeds, or fails with `UnexpectedEof` or `InvalidData`, or panics, and a panic needs an input with two (debug build) or
nine (release build) consecutive bytes that have their top bit set. Missing from the full statement: inputs with such runs. -/
theorem C18_total_partial (t : Ty) (ht : t.WF) (m : Mode) (v : t.El) (rt : Rt) (hv : At t rt v) (bs : Bytes) :
    (∃ v' rest, t.dict.merge m v bs = .ok v' rest) ∨
    (∃ v' e, t.dict.merge m v bs = .err v' e ∧
      (e = .unexpectedEof ∨ e = .invalidData ∨ (e = .panic ∧ LongRun (runLimit m) bs))) := by
  rcases (anyLaw t ht).merge m rt v bs hv with ⟨v', rest, h1, _⟩ | ⟨v', e, h1, _, h2⟩
  · exact .inl ⟨v', rest, h1⟩
  · exact .inr ⟨v', e, h1, h2⟩

/-- The same for `deserialize`, where no hypothesis on a target is needed. -/
theorem C18_deserialize_total_partial (t : Ty) (ht : t.WF) (m : Mode) (bs : Bytes) :
    (∃ v rest, t.dict.deserialize m bs = .ok (v, rest)) ∨
    t.dict.deserialize m bs = .error .unexpectedEof ∨ t.dict.deserialize m bs = .error .invalidData ∨
    (t.dict.deserialize m bs = .error .panic ∧ LongRun (runLimit m) bs) := by
  unfold Dict.deserialize
  rcases C18_total_partial t ht m t.dict.dflt Rt.dflt (anyLaw t ht).at_dflt bs with ⟨v, rest, h⟩ | ⟨v, e, h, h'⟩
  · exact .inl ⟨v, rest, by rw [h]⟩
  · rw [h]
    rcases h' with rfl | rfl | ⟨rfl, h'⟩
    · exact .inr (.inl rfl)
    · exact .inr (.inr (.inl rfl))
    · exact .inr (.inr (.inr ⟨rfl, h'⟩))

/-- An input made of bytes below 128 only (such as anything in which all numbers are small and all text ASCII) never
panics, in either build. -/
theorem C18_small_bytes_never_panic (t : Ty) (ht : t.WF) (m : Mode) (bs : Bytes) (hb : ∀ b ∈ bs, b.toNat < 128) :
    t.dict.deserialize m bs ≠ .error .panic := by
  rcases C18_deserialize_total_partial t ht m bs with ⟨v, rest, h⟩ | h | h | ⟨h, c, h1, h2, h3⟩
  · rw [h]; nofun
  · rw [h]; nofun
  · rw [h]; nofun
  · have hc : c ≠ [] := by
      intro hc; subst hc; cases m <;> cases h2
    obtain ⟨b, hbc⟩ := List.exists_mem_of_ne_nil c hc
    have := hb b (h1.subset hbc)
    have := h3 b hbc
    omega

/-- Non-vacuous: the hypotheses hold for a recursive-looking type, and the three outcomes occur. -/
example : exTy.WF ∧ At exTy Rt.dflt exTy.dict.dflt := ⟨exTy_wf, (anyLaw exTy exTy_wf).at_dflt⟩
example : (∃ v, exTy.dict.deserialize .debug [] = .ok v) ∧
    exTy.dict.deserialize .debug [0x02#8] = .error .unexpectedEof ∧
    exTy.dict.deserialize .debug [0x01#8] = .error .invalidData := ⟨⟨_, rfl⟩, rfl, rfl⟩

/-! ## C19 -/

/-- C19: a length-prefixed value, at any target, is decoded from exactly the declared bytes. The prefix may be any varint
of up to ten bytes denoting the length. What follows (`rest`) influences neither the result nor the error and is left
untouched; on an error the enclosing decoder stops. -/
theorem C19_confined (t : Ty) (ht : t.WF) (hw : t.dict.wire = .sized) (m : Mode) (v : t.El) (len payload rest : Bytes)
    (h1 : IsVarint len) (h2 : len.length ≤ 10) (h3 : lebValue len = payload.length) (h4 : payload.length < 2 ^ 64) :
    t.dict.mergeNested m v .sized (len ++ payload ++ rest) =
      match t.dict.merge m v payload with
      | .ok v' _ => .ok v' rest
      | .err v' e => .err v' e := by
  unfold Dict.mergeNested
  rw [if_neg (by rw [hw]; simp)]
  simp only [withNested]
  rw [List.append_assoc, getVarint_varint m len _ h1 (by omega)]
  simp only [BitVec.toNat_ofNat, h3, Nat.mod_eq_of_lt h4, List.take_left, List.drop_left]
  cases hm : t.dict.merge m v payload with
  | err v' e => rfl
  | ok v' r =>
    rw [(anyLaw t ht).sized_all hw m v payload v' r hm]
    rfl

/-- C19 for several values in a row: decoding the payloads `ps` one after the other gives each the value it has on its own,
so replacing a payload by another one changes the result in its place only. -/
theorem C19_independent (t : Ty) (ht : t.WF) (hw : t.dict.wire = .sized) (m : Mode) (ps : List Bytes) (rest : Bytes)
    (h4 : ∀ p ∈ ps, p.length < 2 ^ 64) (vs : List t.El)
    (hd : ps.map (fun p => t.dict.deserialize m p) = vs.map (fun v => .ok (v, []))) :
    readMany t.dict m ps.length ((ps.map (fun p => leb p.length ++ p)).flatten ++ rest) = .ok (vs, rest) := by
  induction ps generalizing vs with
  | nil => cases vs with
    | nil => rfl
    | cons v vs => cases hd
  | cons p ps ih =>
    cases vs with
    | nil => cases hd
    | cons v vs =>
      simp only [List.map_cons, List.cons.injEq] at hd
      have := ih (fun q hq => h4 q (by simp [hq])) vs hd.2
      simp only [List.length_cons, readMany, List.map_cons, List.flatten_cons]
      have hc := C19_confined t ht hw m t.dict.dflt (leb p.length) p
        ((ps.map (fun p => leb p.length ++ p)).flatten ++ rest) (leb_isVarint _)
        (by
          have : p.length < 128 ^ (9 + 1) := Nat.lt_of_lt_of_le (h4 p (by simp)) (by decide)
          exact leb_length_le 9 _ this)
        (lebValue_leb _) (h4 p (by simp))
      have hd1 := hd.1
      unfold Dict.deserialize at hd1
      have hdn : t.dict.deserializeNested m t.dict.wire
          (leb p.length ++ p ++ (ps.map (fun p => leb p.length ++ p)).flatten ++ rest) =
          .ok (v, (ps.map (fun p => leb p.length ++ p)).flatten ++ rest) := by
        unfold Dict.deserializeNested
        rw [hw, List.append_assoc (leb p.length ++ p), hc]
        cases hm : t.dict.merge m t.dict.dflt p with
        | ok v' r => rw [hm] at hd1; cases hd1; rfl
        | err v' e => rw [hm] at hd1; cases hd1
      rw [hdn]
      simp only
      rw [this]

/-- Non-vacuous: two texts, the second a prefix of garbage. -/
example : readMany Ty.string.dict .debug 2 [1#8, 0x61#8, 2#8, 0x62#8, 0x63#8, 0xff#8] =
    .ok ([⟨[0x61#8], rfl⟩, ⟨[0x62#8, 0x63#8], rfl⟩], [0xff#8]) := by decide

/-! ## C20 -/

/-- C20 as first written, for values of a type `t`: no proper prefix of a written (nested) value decodes. It is false
(`C20_false`). -/
def C20Statement (t : Ty) : Prop :=
  ∀ (v : t.El) (bytes short : Bytes), t.dict.writeNestedFrom .release (fun _ => 0) v none false = .ok bytes →
    short <+: bytes → short ≠ bytes → ∃ e, t.dict.deserializeNested .release t.dict.wire short = .error e

/-- A text cut in the middle is accepted as a shorter text: `"abc"` as `"a"`. -/
theorem C20_false : ¬ C20Statement .string := by
  intro h
  obtain ⟨e, he⟩ := h ⟨[0x61#8, 0x62#8, 0x63#8], rfl⟩ [3#8, 0x61#8, 0x62#8, 0x63#8] [3#8, 0x61#8] (by decide)
    ⟨[0x62#8, 0x63#8], rfl⟩ (by decide)
  have : Ty.string.dict.deserializeNested .release Ty.string.dict.wire [3#8, 0x61#8] = .ok (⟨[0x61#8], rfl⟩, []) := by
    decide
  rw [this] at he
  cases he

/-- What the code does with any length-prefixed value cut short: it behaves exactly as if the shorter payload had been
declared. So the truncation is noticed if and only if the remaining payload is not itself well formed. -/
theorem C20_truncated_reads_shorter_payload (t : Ty) (ht : t.WF) (hw : t.dict.wire = .sized) (m : Mode) (v : t.El)
    (declared : Nat) (payload : Bytes) (h1 : payload.length ≤ declared) (h2 : declared < 2 ^ 64) :
    t.dict.mergeNested m v .sized (leb declared ++ payload) =
      t.dict.mergeNested m v .sized (leb payload.length ++ payload) := by
  have hb : ∀ n, payload.length ≤ n → n < 2 ^ 64 → t.dict.mergeNested m v .sized (leb n ++ payload) =
      match t.dict.merge m v payload with
      | .ok v' _ => .ok v' []
      | .err v' e => .err v' e := by
    intro n h1 h2
    unfold Dict.mergeNested
    rw [if_neg (by rw [hw]; simp)]
    simp only [withNested]
    rw [getVarint_leb m _ _ h2 (by decide)]
    simp only [BitVec.toNat_ofNat, Nat.mod_eq_of_lt h2, List.take_of_length_le h1, List.drop_of_length_le h1,
      List.append_nil]
    cases hm : t.dict.merge m v payload with
    | err v' e => rfl
    | ok v' r => rw [(anyLaw t ht).sized_all hw m v payload v' r hm]
  rw [hb _ h1 h2, hb _ (Nat.le_refl _) (by omega)]

theorem short_hi {n : Nat} {short : Bytes} (hs : short <+: leb n) (hne : short ≠ leb n) :
    (∀ b ∈ short, 128 ≤ b.toNat) ∧ short.length < (leb n).length := by
  refine ⟨?_, ?_⟩
  · obtain ⟨init, last, he, h2, h3⟩ := leb_isVarint n
    intro b hb
    rw [he] at hs hne
    rcases List.prefix_concat_iff.1 hs with h | h
    · exact absurd h hne
    · exact h2 b (h.subset hb)
  · rcases Nat.lt_or_ge short.length (leb n).length with h | h
    · exact h
    · exact absurd (hs.eq_of_length (by have := hs.length_le; omega)) hne

theorem getVarint_short (m : Mode) {w n : Nat} {short : Bytes} (hs : short <+: leb n) (hne : short ≠ leb n) (hw : 0 < w)
    (hn : n < 2 ^ w) : getVarint m w short = .error .unexpectedEof := by
  obtain ⟨hhi, hlt⟩ := short_hi hs hne
  refine getLoop_eof m short hhi _ _ (.inr ?_)
  have : n < 128 ^ ((w - 1) / 7 + 1) := by
    apply Nat.lt_of_lt_of_le hn
    rw [show (128 : Nat) = 2 ^ 7 from rfl, ← Nat.pow_mul]
    exact Nat.pow_le_pow_right (by omega) (by omega)
  have := leb_length_le _ _ this
  omega

/-- The part of C20 that holds for length-prefixed values: cutting the length prefix short (anywhere, also to nothing) is
always noticed. Missing: truncation inside the payload (see `C20_truncated_reads_shorter_payload`). -/
theorem C20_truncated_prefix_fails_partial (t : Ty) (hw : t.dict.wire = .sized) (m : Mode) (v : t.El) (n : Nat)
    (short : Bytes) (hs : short <+: leb n) (hne : short ≠ leb n) (hn : n < 2 ^ 64) :
    t.dict.mergeNested m v .sized short = .err v .unexpectedEof := by
  unfold Dict.mergeNested
  rw [hw]
  simp only [ne_eq, not_true_eq_false, if_false, withNested]
  rw [getVarint_short m hs hne (by decide) hn]

/-- C20 for unsigned integers: every proper prefix of every encoding is rejected, in both builds. -/
theorem C20_truncated_unsigned_fails (w : Width) (m m' : Mode) (v : BitVec w.bits) (bytes short : Bytes)
    (hb : (Ty.uint w).dict.writeNestedFrom m (fun _ => 0) v none false = .ok bytes) (hs : short <+: bytes)
    (hne : short ≠ bytes) : (Ty.uint w).dict.deserializeNested m' .varint short = .error .unexpectedEof := by
  cases hb
  have he : (putVarint v : Bytes) = leb v.toNat := putVarint_eq_leb w.le_bits v
  change short <+: putVarint v at hs
  change short ≠ putVarint v at hne
  rw [he] at hs hne
  show (uintDict w).deserializeNested m' .varint short = _
  simp only [Dict.deserializeNested, Dict.mergeNested, uintDict, primDict, ne_eq, not_true_eq_false, if_false]
  rw [getVarint_short m' hs hne (by cases w <;> decide) v.isLt]

/-- C20 for signed integers. -/
theorem C20_truncated_signed_fails (w : Width) (m m' : Mode) (v : BitVec w.bits) (bytes short : Bytes)
    (hb : (Ty.sint w).dict.writeNestedFrom m (fun _ => 0) v none false = .ok bytes) (hs : short <+: bytes)
    (hne : short ≠ bytes) : (Ty.sint w).dict.deserializeNested m' .varint short = .error .unexpectedEof := by
  cases hb
  have he : (putVarint (zigzag v) : Bytes) = leb (zigzag v).toNat := putVarint_eq_leb w.le_bits _
  change short <+: putVarint (zigzag v) at hs
  change short ≠ putVarint (zigzag v) at hne
  rw [he] at hs hne
  show (sintDict w).deserializeNested m' .varint short = _
  simp only [Dict.deserializeNested, Dict.mergeNested, sintDict, primDict, ne_eq, not_true_eq_false, if_false, getSigned]
  rw [getVarint_short m' hs hne (by cases w <;> decide) (zigzag v).isLt]

/-- C20 for bools. -/
theorem C20_truncated_bool_fails (m m' : Mode) (v : Bool) (bytes short : Bytes)
    (hb : Ty.bool.dict.writeNestedFrom m (fun _ => 0) v none false = .ok bytes) (hs : short <+: bytes)
    (hne : short ≠ bytes) : Ty.bool.dict.deserializeNested m' .varint short = .error .unexpectedEof := by
  have : short = [] := by
    cases v <;> (cases hb; rcases List.prefix_cons_iff.1 hs with h | ⟨l, h, h'⟩
                 · exact h
                 · rw [List.prefix_nil] at h'; subst h'; exact absurd h hne)
  subst this
  rfl

/-- Non-vacuous: a proper prefix of the two byte encoding of 300. -/
example : [0xac#8] <+: leb 300 ∧ [0xac#8] ≠ leb 300 ∧ 300 < 2 ^ Width.w16.bits := by
  rw [leb_eq_lebF]; decide

end Steit
