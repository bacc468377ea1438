import Verif.Model.CSharp
import Verif.Lemmas.WireFmt
import Verif.Lemmas.Zigzag
import Verif.Lemmas.VarintAny
import Verif.Lemmas.DecTy

/-! # The C# reader on bytes written by Rust -/

namespace Steit
open Spec

theorem csVarintLoop_of_getLoop : ∀ (bs : Bytes) (acc : BitVec 64) (off : Nat) (v : BitVec 64) (rest : Bytes),
    getLoop .release bs acc off = .ok (v, rest) → csVarintLoop bs acc off = .ok (v, rest)
  | [], _, _, _, _, h => by cases h
  | b :: bs, acc, off, v, rest, h => by
    have hs : shlChecked .release ((b &&& 0x7f#8).setWidth 64) off = .ok ((b &&& 0x7f#8).setWidth 64 <<< (off % 64)) := by
      unfold shlChecked
      by_cases ho : off < 64
      · rw [if_pos ho, Nat.mod_eq_of_lt ho]
      · rw [if_neg ho]
    simp only [getLoop, hs] at h
    simp only [csVarintLoop]
    by_cases hb : b &&& 0x80#8 = 0#8
    · rw [if_pos hb] at h ⊢; cases h; rfl
    · rw [if_neg hb] at h ⊢
      exact csVarintLoop_of_getLoop bs _ _ v rest h

theorem csReadUnsigned_varint (enc rest : Bytes) (h : IsVarint enc) (hlen : enc.length ≤ 10) :
    csReadUnsigned (enc ++ rest) = .ok (BitVec.ofNat 64 (lebValue enc), rest) :=
  csVarintLoop_of_getLoop _ _ _ _ _ (getVarint_varint .release (w := 64) enc rest h (by omega))

theorem csReadUnsigned_leb (n : Nat) (rest : Bytes) (h : n < 2 ^ 64) :
    csReadUnsigned (leb n ++ rest) = .ok (BitVec.ofNat 64 n, rest) :=
  csVarintLoop_of_getLoop _ _ _ _ _ (getVarint_leb .release (w := 64) n rest h (by omega))

theorem csReadUInt_leb (w : Width) (v : BitVec w.bits) (rest : Bytes) :
    csReadUInt w (leb v.toNat ++ rest) = .ok (v, rest) := by
  have hw : w.bits ≤ 64 := by cases w <;> decide
  have hv : v.toNat < 2 ^ 64 := Nat.lt_of_lt_of_le v.isLt (Nat.pow_le_pow_right (by omega) hw)
  unfold csReadUInt
  rw [csReadUnsigned_leb _ _ hv]
  simp only [bind, Except.bind, Except.ok.injEq, Prod.mk.injEq, and_true]
  apply BitVec.eq_of_toNat_eq
  rw [BitVec.toNat_setWidth, BitVec.toNat_ofNat, Nat.mod_eq_of_lt hv, Nat.mod_eq_of_lt v.isLt]

theorem csReadUInt32_leb (n : Nat) (rest : Bytes) (h : n < 2 ^ 32) :
    csReadUInt32 (leb n ++ rest) = .ok (BitVec.ofNat 32 n, rest) := by
  have := csReadUInt_leb .w32 (BitVec.ofNat 32 n) rest
  have hn : BitVec.toNat (w := Width.w32.bits) (BitVec.ofNat 32 n) = n :=
    (BitVec.toNat_ofNat n 32).trans (Nat.mod_eq_of_lt h)
  rw [hn] at this
  exact this

/-- What C# reads for a signed integer written by Rust, before the cast: its value if it has less than 64 bits. -/
theorem csReadSigned_leb (v : Int) (rest : Bytes) (h : zigzagNat v < 2 ^ 64) :
    csReadSigned (leb (zigzagNat v) ++ rest) = .ok (unzigzag (BitVec.ofNat 64 (zigzagNat v)), rest) := by
  unfold csReadSigned
  rw [csReadUnsigned_leb _ _ h]
  rfl

theorem unzigzag_small (v : Int) (h : zigzagNat v < 2 ^ 63) : (unzigzag (BitVec.ofNat 64 (zigzagNat v))).toInt = v := by
  rw [unzigzag_toInt (by omega)]
  have hz : (0 ≤ v ∧ (zigzagNat v : Int) = 2 * v) ∨ (v < 0 ∧ (zigzagNat v : Int) = -2 * v - 1) := by
    unfold zigzagNat
    by_cases h : 0 ≤ v
    · left; rw [if_pos h]; omega
    · right; rw [if_neg h]; omega
  have hn : (BitVec.ofNat 64 (zigzagNat v)).toNat = zigzagNat v := by
    rw [BitVec.toNat_ofNat, Nat.mod_eq_of_lt (by omega)]
  have hi : (BitVec.ofNat 64 (zigzagNat v)).toInt = zigzagNat v := by
    rcases toInt_cases (BitVec.ofNat 64 (zigzagNat v)) with ⟨_, _, hi⟩ | ⟨_, h2, _⟩
    · rw [hi, hn]
    · rw [hn] at h2; omega
  rw [hn, hi]
  generalize zigzagNat v = z at *
  rcases hz with ⟨h0, e⟩ | ⟨h0, e⟩ <;> split <;> omega

theorem zigzagNat_lt {w : Nat} (hw : 0 < w) (v : BitVec w) : zigzagNat v.toInt < 2 ^ w := by
  rw [← zigzag_toNat hw]
  exact (zigzag v).isLt

theorem setWidth_of_toInt {w : Nat} (hw : w ≤ 64) (x : BitVec 64) (v : BitVec w) (h : x.toInt = v.toInt) :
    x.setWidth w = v := by
  apply BitVec.eq_of_toNat_eq
  rw [BitVec.toNat_setWidth]
  have hx := x.isLt
  have hv := v.isLt
  obtain ⟨k, hk⟩ : ∃ k, 2 ^ 64 = 2 ^ w * k := ⟨2 ^ (64 - w), by rw [← Nat.pow_add]; congr 1; omega⟩
  have h1 : ((x.toNat : Int) % (2 ^ w : Nat)) = (v.toNat : Int) % (2 ^ w : Nat) := by
    have e1 : x.toInt % (2 ^ w : Nat) = (x.toNat : Int) % (2 ^ w : Nat) := by
      rcases toInt_cases x with ⟨_, _, hi⟩ | ⟨_, _, hi⟩
      · rw [hi]
      · rw [hi, hk]
        rw [Int.natCast_mul, Int.sub_mul_emod_self_left]
    have e2 : v.toInt % (2 ^ w : Nat) = (v.toNat : Int) % (2 ^ w : Nat) := by
      rcases toInt_cases v with ⟨_, _, hi⟩ | ⟨_, _, hi⟩
      · rw [hi]
      · rw [hi, Int.sub_emod_right]
    rw [← e1, ← e2, h]
  have h2 : x.toNat % 2 ^ w = v.toNat % 2 ^ w := by exact_mod_cast h1
  rw [h2, Nat.mod_eq_of_lt hv]

theorem csReadSInt_leb (w : Width) (v : BitVec w.bits) (rest : Bytes)
    (h : w = .w64 → -(2 ^ 62 : Int) ≤ v.toInt ∧ v.toInt < 2 ^ 62) :
    csReadSInt w (leb (zigzagNat v.toInt) ++ rest) = .ok (v, rest) := by
  have hw : w.bits ≤ 64 := by cases w <;> decide
  have h8 := w.le_bits
  have hz : zigzagNat v.toInt < 2 ^ 63 := by
    cases w with
    | w64 =>
      have := h rfl
      unfold zigzagNat
      split <;> omega
    | w8 => exact Nat.lt_of_lt_of_le (zigzagNat_lt (by omega) v) (by decide)
    | w16 => exact Nat.lt_of_lt_of_le (zigzagNat_lt (by omega) v) (by decide)
    | w32 => exact Nat.lt_of_lt_of_le (zigzagNat_lt (by omega) v) (by decide)
  unfold csReadSInt
  rw [csReadSigned_leb _ _ (by omega)]
  simp only [bind, Except.bind, Except.ok.injEq, Prod.mk.injEq, and_true]
  exact setWidth_of_toInt hw _ _ (unzigzag_small _ hz)

theorem csBoolLoop_of_getBoolLoop : ∀ (bs : Bytes) (acc v : Bool) (rest : Bytes),
    getBoolLoop bs acc = .ok (v, rest) → csBoolLoop bs acc = .ok (v, rest)
  | [], _, _, _, h => by cases h
  | b :: bs, acc, v, rest, h => by
    simp only [getBoolLoop] at h
    simp only [csBoolLoop]
    by_cases hb : b &&& 0x80#8 = 0#8
    · rw [if_pos hb] at h ⊢; cases h; rfl
    · rw [if_neg hb] at h ⊢
      exact csBoolLoop_of_getBoolLoop bs _ v rest h

theorem csReadBoolean_leb (v : Bool) (rest : Bytes) : csReadBoolean (leb v.toNat ++ rest) = .ok (v, rest) := by
  cases v
  · have : leb (Bool.toNat false) = [0#8] := by unfold leb; rfl
    rw [this]; rfl
  · have : leb (Bool.toNat true) = [1#8] := by unfold leb; rfl
    rw [this]; rfl

theorem csReadKey_leb (tag : U32) (wire : WireType) (h : tag.toNat < 2 ^ 29) (rest : Bytes) :
    csReadKey (leb (tag.toNat * 8 + wire.num) ++ rest) = .ok ((tag, wire), rest) := by
  have hn := wire.num_le
  have hlt : tag.toNat * 8 + wire.num < 2 ^ 32 := by omega
  unfold csReadKey
  rw [csReadUInt32_leb _ _ hlt]
  have hv : (BitVec.ofNat 32 (tag.toNat * 8 + wire.num)).toNat = tag.toNat * 8 + wire.num := by
    rw [BitVec.toNat_ofNat, Nat.mod_eq_of_lt hlt]
  have hm : (BitVec.ofNat 32 (tag.toNat * 8 + wire.num) &&& 7#32) = wire.value := by
    have := mask_toNat (BitVec.ofNat 32 (tag.toNat * 8 + wire.num))
    rw [show wireTypeMask = 7#32 from by decide, hv] at this
    apply BitVec.eq_of_toNat_eq
    rw [this]
    cases wire <;> simp [WireType.num, WireType.value, Nat.add_mod]
  have hs : BitVec.ofNat 32 (tag.toNat * 8 + wire.num) >>> 3 = tag := by
    apply BitVec.eq_of_toNat_eq
    rw [BitVec.toNat_ushiftRight, hv, Nat.shiftRight_eq_div_pow]
    omega
  simp only [bind, Except.bind, hm, hs]
  cases wire <;> rfl

theorem csGetNested_framed (payload rest : Bytes) (h : payload.length < 2 ^ 31) :
    csGetNested (leb payload.length ++ payload ++ rest) = .ok (payload, rest) := by
  unfold csGetNested csReadSize
  rw [List.append_assoc, csReadUInt32_leb _ _ (by omega)]
  have hi : (BitVec.ofNat 32 payload.length).toInt = payload.length := by
    rcases toInt_cases (BitVec.ofNat 32 payload.length) with ⟨_, _, hi⟩ | ⟨_, h2, _⟩
    · rw [hi, BitVec.toNat_ofNat, Nat.mod_eq_of_lt (by omega)]
    · rw [BitVec.toNat_ofNat, Nat.mod_eq_of_lt (by omega)] at h2; omega
  simp only [bind, Except.bind, hi]
  unfold csTake
  rw [if_neg (by simp only [List.length_append]; omega), if_neg (by omega)]
  simp

end Steit
