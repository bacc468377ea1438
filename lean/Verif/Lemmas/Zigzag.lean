import Verif.Lemmas.Varint

/-! Helper lemmas about zigzag encoding. -/

namespace Steit
open Spec

theorem toInt_cases {w : Nat} (v : BitVec w) :
    (v.msb = false ∧ 2 * v.toNat < 2 ^ w ∧ v.toInt = v.toNat) ∨
    (v.msb = true ∧ 2 ^ w ≤ 2 * v.toNat ∧ v.toInt = (v.toNat : Int) - (2 ^ w : Nat)) := by
  cases h : v.msb
  · left
    exact ⟨rfl, BitVec.msb_eq_false_iff_two_mul_lt.1 h, BitVec.toInt_eq_toNat_of_msb h⟩
  · right
    refine ⟨rfl, BitVec.msb_eq_true_iff_two_mul_ge.1 h, ?_⟩
    rw [BitVec.toInt_eq_toNat_cond, if_neg]
    have := BitVec.msb_eq_true_iff_two_mul_ge.1 h
    omega

theorem zigzag_toNat {w : Nat} (hw : 0 < w) (v : BitVec w) : (zigzag v).toNat = zigzagNat v.toInt := by
  have hv := v.isLt
  have hsh : (v <<< 1).toNat = 2 * v.toNat % 2 ^ w := by
    rw [BitVec.toNat_shiftLeft, Nat.shiftLeft_eq]; congr 1; omega
  have hpow : 2 ^ w = 2 * 2 ^ (w - 1) := by rw [← Nat.pow_succ']; congr 1; omega
  rcases toInt_cases v with ⟨hm, h2, hi⟩ | ⟨hm, h2, hi⟩
  · have h0 : v.sshiftRight (w - 1) = 0#w := by
      rw [BitVec.sshiftRight_eq_of_msb_false hm]
      apply BitVec.eq_of_toNat_eq
      rw [BitVec.toNat_ushiftRight, Nat.shiftRight_eq_div_pow, Nat.div_eq_of_lt (by omega)]
      simp
    unfold zigzag
    rw [h0, BitVec.xor_zero, hsh, hi]
    unfold zigzagNat
    rw [if_pos (by omega), Nat.mod_eq_of_lt h2]
    omega
  · have h0 : v.sshiftRight (w - 1) = BitVec.allOnes w := by
      rw [BitVec.sshiftRight_eq_of_msb_true hm]
      have : (~~~v) >>> (w - 1) = 0#w := by
        apply BitVec.eq_of_toNat_eq
        rw [BitVec.toNat_ushiftRight, Nat.shiftRight_eq_div_pow, BitVec.toNat_not, Nat.div_eq_of_lt (by omega)]
        simp
      rw [this]
      apply BitVec.eq_of_toNat_eq
      simp
    unfold zigzag
    rw [h0, BitVec.xor_allOnes, BitVec.toNat_not, hsh, hi]
    unfold zigzagNat
    rw [if_neg (by omega)]
    have : 2 * v.toNat % 2 ^ w = 2 * v.toNat - 2 ^ w := by
      rw [Nat.mod_eq_sub_mod h2, Nat.mod_eq_of_lt (by omega)]
    omega

theorem and_one_cases {w : Nat} (hw : 1 < w) (v : BitVec w) :
    (v &&& 1#w = 0#w ∧ v.toNat % 2 = 0) ∨ (v &&& 1#w = 1#w ∧ v.toNat % 2 = 1) := by
  have h1 : (1#w).toNat = 1 := by simp [Nat.mod_eq_of_lt (Nat.one_lt_two_pow (by omega : w ≠ 0))]
  have hand : (v &&& 1#w).toNat = v.toNat % 2 := by
    rw [BitVec.toNat_and, h1]; exact Nat.and_one_is_mod _
  rcases Nat.mod_two_eq_zero_or_one v.toNat with h | h
  · left; refine ⟨BitVec.eq_of_toNat_eq ?_, h⟩; rw [hand, h]; simp
  · right; refine ⟨BitVec.eq_of_toNat_eq ?_, h⟩; rw [hand, h, h1]

theorem neg_one_eq_allOnes {w : Nat} : -(1#w) = BitVec.allOnes w := by
  apply BitVec.eq_of_toNat_eq
  rw [BitVec.toNat_neg, BitVec.toNat_allOnes, BitVec.toNat_ofNat]
  rcases Nat.eq_zero_or_pos w with h | h
  · subst h; rfl
  · have h2 := Nat.one_lt_two_pow (n := w) (by omega)
    rw [Nat.mod_eq_of_lt h2, Nat.mod_eq_of_lt (by omega)]

theorem toInt_not' {w : Nat} (hw : 0 < w) (v : BitVec w) : (~~~v).toInt = -v.toInt - 1 := by
  have hv := v.isLt
  have hn : (~~~v).toNat = 2 ^ w - 1 - v.toNat := BitVec.toNat_not
  rcases toInt_cases v with ⟨hm, h2, hi⟩ | ⟨hm, h2, hi⟩ <;>
  rcases toInt_cases (~~~v) with ⟨hm', h2', hi'⟩ | ⟨hm', h2', hi'⟩ <;> rw [hi, hi', hn]
  · have hpow : 2 ^ w = 2 * 2 ^ (w - 1) := by rw [← Nat.pow_succ']; congr 1; omega
    omega
  · omega
  · omega
  · omega

theorem unzigzag_toInt {w : Nat} (hw : 1 < w) (u : BitVec w) :
    (unzigzag u).toInt = if u.toNat % 2 = 0 then u.toInt / 2 else -(u.toInt / 2) - 1 := by
  have hs : (u.sshiftRight 1).toInt = u.toInt / 2 := by
    rw [BitVec.toInt_sshiftRight, Int.shiftRight_eq_div_pow]; simp
  unfold unzigzag
  rcases and_one_cases hw u with ⟨h, hp⟩ | ⟨h, hp⟩
  · rw [h, if_pos hp]; simp [hs]
  · rw [h, if_neg (by omega), neg_one_eq_allOnes, BitVec.xor_allOnes, toInt_not' (by omega), hs]

/-- Exact effect of a signed integer's round trip through the (faulty) zigzag pair. -/
theorem unzigzag_zigzag_toInt {w : Nat} (hw : 2 ≤ w) (v : BitVec w) :
    (unzigzag (zigzag v)).toInt =
      if (2 ^ (w - 2) : Nat) ≤ v.toInt then v.toInt - (2 ^ (w - 1) : Nat)
      else if v.toInt < -(2 ^ (w - 2) : Nat) then v.toInt + (2 ^ (w - 1) : Nat)
      else v.toInt := by
  have hz := zigzag_toNat (by omega) v
  rw [unzigzag_toInt (by omega)]
  have hpow : 2 ^ w = 4 * 2 ^ (w - 2) := by
    rw [show (4 : Nat) = 2 ^ 2 from rfl, ← Nat.pow_add]; congr 1; omega
  have hpow1 : 2 ^ (w - 1) = 2 * 2 ^ (w - 2) := by
    rw [← Nat.pow_succ']; congr 1; omega
  have hi : -(2 * (2 ^ (w - 2) : Nat) : Int) ≤ v.toInt ∧ v.toInt < 2 * (2 ^ (w - 2) : Nat) := by
    have hv := v.isLt
    rcases toInt_cases v with ⟨hm, h2, hi⟩ | ⟨hm, h2, hi⟩ <;> omega
  have hz' : (0 ≤ v.toInt ∧ ((zigzag v).toNat : Int) = 2 * v.toInt) ∨
      (v.toInt < 0 ∧ ((zigzag v).toNat : Int) = -2 * v.toInt - 1) := by
    rw [hz]; unfold zigzagNat
    by_cases h : 0 ≤ v.toInt
    · left; rw [if_pos h]; omega
    · right; rw [if_neg h]; omega
  clear hz
  rw [hpow1]
  rcases toInt_cases (zigzag v) with ⟨hm', h2', hi'⟩ | ⟨hm', h2', hi'⟩ <;> rw [hi'] <;>
    generalize v.toInt = i at * <;> generalize (zigzag v).toNat = z at * <;>
    generalize 2 ^ (w - 2) = q at * <;> rcases hz' with ⟨h, e⟩ | ⟨h, e⟩ <;> (repeat' split) <;> omega

end Steit
