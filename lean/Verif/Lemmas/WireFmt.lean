import Verif.Spec.Wire
import Verif.Lemmas.Varint

/-! # Lemmas about tags -/

namespace Steit

theorem WireType.num_le (wt : WireType) : wt.num ≤ 2 := by cases wt <;> decide

theorem WireType.num_inj {a b : WireType} (h : a.num = b.num) : a = b := by
  cases a <;> cases b <;> simp [num] at h ⊢

theorem validate_ok {n : U32} (h : n.toNat < 2 ^ 29) : validateFieldNumber n = .ok () := by
  have : ¬ (fieldNumberMax < n) := by
    rw [BitVec.lt_def]; unfold fieldNumberMax
    have : (0x1fffffff#32 : BitVec 32).toNat = 2 ^ 29 - 1 := by decide
    omega
  unfold validateFieldNumber; rw [if_neg this]

theorem validate_err {n : U32} (h : ¬ n.toNat < 2 ^ 29) : validateFieldNumber n = .error .invalidData := by
  have : (fieldNumberMax < n) := by
    rw [BitVec.lt_def]; unfold fieldNumberMax
    have : (0x1fffffff#32 : BitVec 32).toNat = 2 ^ 29 - 1 := by decide
    omega
  unfold validateFieldNumber; rw [if_pos this]

theorem tag_bits (n : U32) (wt : WireType) (h : n.toNat < 2 ^ 29) :
    ((n <<< wireTypeBits) ||| wt.value).toNat = n.toNat * 8 + wt.num := by
  have h1 : (n <<< wireTypeBits).toNat = n.toNat * 8 := by
    unfold wireTypeBits
    rw [BitVec.toNat_shiftLeft, Nat.shiftLeft_eq]
    omega
  have h2 : wt.value.toNat = wt.num := by cases wt <;> rfl
  rw [BitVec.toNat_or, h1, h2]
  have := Nat.two_pow_add_eq_or_of_lt (i := 3) (b := wt.num) (by cases wt <;> decide) n.toNat
  rw [Nat.mul_comm] at this
  exact this.symm

theorem mkTag_ok (n : U32) (wt : WireType) (h : n.toNat < 2 ^ 29) :
    ∃ t, mkTag n wt = .ok t ∧ t.toNat = n.toNat * 8 + wt.num := by
  refine ⟨_, ?_, tag_bits n wt h⟩
  unfold mkTag; rw [validate_ok h]; rfl

theorem mkTag_err (n : U32) (wt : WireType) (h : ¬ n.toNat < 2 ^ 29) : mkTag n wt = .error .invalidData := by
  unfold mkTag; rw [validate_err h]; rfl

theorem mask_toNat (v : U32) : (v &&& wireTypeMask).toNat = v.toNat % 8 := by
  have : wireTypeMask = 7#32 := by decide
  rw [this, BitVec.toNat_and]
  exact Nat.and_two_pow_sub_one_eq_mod v.toNat 3

theorem parseTag_ok (v n : U32) (wt : WireType) (h : v.toNat = n.toNat * 8 + wt.num) :
    parseTag v = .ok (n, wt) := by
  have hv := v.isLt
  have hm := mask_toNat v
  have hwt := wt.num_le
  have hn : v >>> wireTypeBits = n := by
    apply BitVec.eq_of_toNat_eq
    rw [BitVec.toNat_ushiftRight, Nat.shiftRight_eq_div_pow]; unfold wireTypeBits; omega
  have hf : WireType.fromValue (v &&& wireTypeMask) = .ok wt := by
    have : (v &&& wireTypeMask) = BitVec.ofNat 32 wt.num := by
      apply BitVec.eq_of_toNat_eq; rw [hm, BitVec.toNat_ofNat]; omega
    rw [this]; cases wt <;> rfl
  unfold parseTag
  rw [hf, hn]
  simp only [bind, Except.bind]
  rw [validate_ok (by omega)]

theorem parseTag_inv {v n : U32} {wt : WireType} (h : parseTag v = .ok (n, wt)) :
    v.toNat = n.toNat * 8 + wt.num := by
  have hm := mask_toNat v
  unfold parseTag at h
  simp only [bind, Except.bind] at h
  split at h
  · cases h
  · rename_i wt' hf
    split at h
    · cases h
    · simp only [Except.ok.injEq, Prod.mk.injEq] at h
      obtain ⟨h1, h2⟩ := h
      subst h1 h2
      have h3 : (v >>> wireTypeBits).toNat = v.toNat / 8 := by
        rw [BitVec.toNat_ushiftRight, Nat.shiftRight_eq_div_pow]; rfl
      rw [h3]
      have : v.toNat % 8 = wt'.num := by
        unfold WireType.fromValue at hf
        rw [← hm]
        split at hf
        · next h => cases hf; rw [h]; rfl
        · split at hf
          · next h => cases hf; rw [h]; rfl
          · cases hf
      omega

theorem parseTag_err {v : U32} (h : v.toNat % 8 ≠ 0 ∧ v.toNat % 8 ≠ 2) : parseTag v = .error .invalidData := by
  have hm := mask_toNat v
  have : WireType.fromValue (v &&& wireTypeMask) = .error .invalidData := by
    unfold WireType.fromValue
    rw [if_neg, if_neg]
    · intro hh; rw [hh] at hm; simp at hm; omega
    · intro hh; rw [hh] at hm; simp at hm; omega
  unfold parseTag; rw [this]; rfl

end Steit
