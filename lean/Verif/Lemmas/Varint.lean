import Verif.Model.Varint
import Verif.Spec.Leb128

/-! Helper lemmas about the varint code. -/

namespace Steit
open Spec

theorem and_shl_allOnes_eq_zero_iff {w : Nat} (x : BitVec w) (k : Nat) :
    x &&& (~~~(0#w) <<< k) = 0#w ↔ x.toNat < 2 ^ k := by
  constructor
  · intro h
    apply Nat.lt_pow_two_of_testBit
    intro i hi
    by_cases hw : i < w
    · have := congrArg (fun y => y.getLsbD i) h
      simp [BitVec.getLsbD, hw] at this
      rw [BitVec.testBit_toNat]
      have h2 := this
      simp only [BitVec.getLsbD] at *
      grind
    · exact Nat.testBit_lt_two_pow (Nat.lt_of_lt_of_le x.isLt (Nat.pow_le_pow_right (by omega) (by omega)))
  · intro h
    apply BitVec.eq_of_getLsbD_eq
    intro i hi
    simp only [BitVec.getLsbD_and, BitVec.getLsbD_shiftLeft, BitVec.getLsbD_not, BitVec.getLsbD_zero]
    by_cases hk : i < k
    · simp [hk]
    · have : x.getLsbD i = false := by
        rw [BitVec.getLsbD]
        exact Nat.testBit_lt_two_pow (Nat.lt_of_lt_of_le h (Nat.pow_le_pow_right (by omega) (by omega)))
      simp [this]

theorem and_not_7f_eq_zero_iff {w : Nat} (x : BitVec w) (_hw : 8 ≤ w) :
    x &&& ~~~(0x7f#w) = 0#w ↔ x.toNat < 128 := by
  have : ~~~(0x7f#w) = ~~~(0#w) <<< 7 := by
    apply BitVec.eq_of_getLsbD_eq
    intro i hi
    simp only [BitVec.getLsbD_shiftLeft, BitVec.getLsbD_not, hi, decide_true,
      Bool.true_and, BitVec.getLsbD_ofNat]
    by_cases h7 : i < 7
    · simp only [h7, decide_true, Bool.not_true, Bool.false_and, Bool.not_eq_false']
      have : i = 0 ∨ i = 1 ∨ i = 2 ∨ i = 3 ∨ i = 4 ∨ i = 5 ∨ i = 6 := by omega
      rcases this with h | h | h | h | h | h | h <;> subst h <;> decide
    · have h1 : Nat.testBit 127 i = false :=
        Nat.testBit_lt_two_pow (Nat.lt_of_lt_of_le (by decide : 127 < 2 ^ 7) (Nat.pow_le_pow_right (by omega) (by omega)))
      simp [h7, h1]
      omega
  rw [this, and_shl_allOnes_eq_zero_iff]

theorem byte_hi (b : Byte) : (b &&& 0x80#8 = 0#8) ↔ b.toNat < 128 := by
  revert b; decide

theorem byte_lo (b : Byte) : (b &&& 0x7f#8).toNat = b.toNat % 128 := by
  revert b; decide

theorem byte_cont (b : Byte) : (b &&& 0x7f#8 ||| 0x80#8) = BitVec.ofNat 8 (b.toNat % 128 + 128) := by
  revert b; decide

theorem putLoop_eq_leb {w : Nat} (hw : 8 ≤ w) :
    ∀ (n : Nat) (v : BitVec w), v.toNat < 2 ^ n → 0 < n → putLoop n v = leb v.toNat := by
  intro n
  induction n with
  | zero => intro v _ h; omega
  | succ n ih =>
    intro v hv _
    unfold putLoop leb
    simp only [and_not_7f_eq_zero_iff v hw]
    by_cases h : v.toNat < 128
    · simp only [h, if_true]
      congr 1
      apply BitVec.eq_of_toNat_eq
      simp
    · simp only [h, if_false]
      have hn : 7 ≤ n := by
        by_cases h7 : 7 ≤ n
        · exact h7
        · have : 2 ^ (n + 1) ≤ 2 ^ 7 := Nat.pow_le_pow_right (by omega) (by omega)
          omega
      have hsh : (v >>> 7).toNat = v.toNat / 128 := by
        simp [BitVec.toNat_ushiftRight, Nat.shiftRight_eq_div_pow]
      rw [ih (v >>> 7) ?_ (by omega), hsh]
      · congr 1
        rw [byte_cont]
        congr 2
        rw [BitVec.toNat_setWidth]
        omega
      · rw [hsh]
        have h1 : 2 ^ (n + 1) = 2 * 2 ^ n := by rw [Nat.pow_succ]; omega
        omega

/-- The writer produces the specified shortest encoding. -/
theorem putVarint_eq_leb {w : Nat} (hw : 8 ≤ w) (v : BitVec w) : putVarint v = leb v.toNat :=
  putLoop_eq_leb hw w v v.isLt (by omega)

/-- The loop equation of the writer, without the iteration bound. -/
theorem putVarint_eq {w : Nat} (hw : 8 ≤ w) (v : BitVec w) :
    putVarint v = if v &&& ~~~(0x7f#w) = 0#w then [v.setWidth 8]
      else (v.setWidth 8 &&& 0x7f#8 ||| 0x80#8) :: putVarint (v >>> 7) := by
  rw [putVarint_eq_leb hw, putVarint_eq_leb hw, leb]
  simp only [and_not_7f_eq_zero_iff v hw]
  have hsh : (v >>> 7).toNat = v.toNat / 128 := by
    simp [BitVec.toNat_ushiftRight, Nat.shiftRight_eq_div_pow]
  rw [hsh, byte_cont]
  split
  · congr 1
    apply BitVec.eq_of_toNat_eq
    simp
  · congr 2
    rw [BitVec.toNat_setWidth]
    omega

/-- `leb` by structural recursion, for evaluating examples. -/
def lebF : Nat → Nat → Bytes
  | 0, n => [BitVec.ofNat 8 n]
  | f + 1, n => if n < 128 then [BitVec.ofNat 8 n] else BitVec.ofNat 8 (n % 128 + 128) :: lebF f (n / 128)

theorem leb_eq_lebF (n : Nat) : leb n = lebF n n := by
  have : ∀ f n, n ≤ f → leb n = lebF f n := by
    intro f
    induction f with
    | zero => intro n h; have : n = 0 := by omega
              subst this; unfold leb lebF; rfl
    | succ f ih =>
      intro n h
      unfold leb lebF
      split
      · rfl
      · rw [ih (n / 128) (by omega)]
  exact this n n (Nat.le_refl n)

theorem leb_ne_nil (n : Nat) : leb n ≠ [] := by
  unfold leb; split <;> simp

theorem leb_isVarint (n : Nat) : IsVarint (leb n) := by
  induction n using Nat.strongRecOn with
  | ind n ih =>
    unfold leb
    by_cases h : n < 128
    · rw [if_pos h]
      refine ⟨[], BitVec.ofNat 8 n, rfl, by simp, ?_⟩
      rw [BitVec.toNat_ofNat]; omega
    · rw [if_neg h]
      obtain ⟨init, last, h1, h2, h3⟩ := ih (n / 128) (by omega)
      refine ⟨BitVec.ofNat 8 (n % 128 + 128) :: init, last, by rw [h1]; rfl, ?_, h3⟩
      intro b hb
      rcases List.mem_cons.1 hb with h | h
      · subst h; rw [BitVec.toNat_ofNat]; omega
      · exact h2 b h

theorem lebValue_leb (n : Nat) : lebValue (leb n) = n := by
  induction n using Nat.strongRecOn with
  | ind n ih =>
    unfold leb
    split
    · simp [lebValue, BitVec.toNat_ofNat]; omega
    · simp only [lebValue, BitVec.toNat_ofNat]
      rw [ih (n / 128) (by omega)]
      omega

theorem lebValue_append_single (init : Bytes) (last : Byte) :
    lebValue (init ++ [last]) = lebValue init + 128 ^ init.length * (last.toNat % 128) := by
  induction init with
  | nil => simp [lebValue]
  | cons b bs ih =>
    simp only [List.cons_append, lebValue, ih, List.length_cons, Nat.pow_succ]
    rw [Nat.mul_add, ← Nat.mul_assoc, Nat.mul_comm 128 (128 ^ bs.length)]
    omega

/-- `leb n` is the shortest varint denoting `n`. -/
theorem leb_minimal (bs : Bytes) (h : IsVarint bs) : (leb (lebValue bs)).length ≤ bs.length := by
  obtain ⟨init, last, rfl, h2, h3⟩ := h
  induction init with
  | nil =>
    simp only [List.nil_append, lebValue]
    unfold leb
    rw [if_pos (by omega)]
    simp
  | cons b bs ih =>
    have ih := ih (fun b hb => h2 b (List.mem_cons_of_mem _ hb))
    simp only [List.cons_append, lebValue, List.length_cons]
    unfold leb
    split
    · simp
    · rw [List.length_cons]
      have : (b.toNat % 128 + 128 * lebValue (bs ++ [last])) / 128 = lebValue (bs ++ [last]) := by omega
      rw [this]
      omega

theorem leb_length_le (k n : Nat) (h : n < 128 ^ (k + 1)) : (leb n).length ≤ k + 1 := by
  induction k generalizing n with
  | zero => unfold leb; rw [if_pos (by omega)]; simp
  | succ k ih =>
    unfold leb
    split
    · simp
    · rw [List.length_cons]
      have := ih (n / 128) (by rw [Nat.pow_succ] at h; omega)
      omega

theorem leb_length_ge (k n : Nat) (h : 128 ^ k ≤ n) : k + 1 ≤ (leb n).length := by
  induction k generalizing n with
  | zero =>
    have := leb_ne_nil n
    have : 0 < (leb n).length := List.length_pos_iff.2 this
    omega
  | succ k ih =>
    have h128 : 128 ≤ n := by
      have : 128 ^ 1 ≤ 128 ^ (k + 1) := Nat.pow_le_pow_right (by omega) (by omega)
      omega
    unfold leb
    rw [if_neg (by omega), List.length_cons]
    have := ih (n / 128) (by rw [Nat.pow_succ] at h; omega)
    omega

theorem leb_length_eq (k n : Nat) (h : 128 ^ k ≤ n) (h' : n < 128 ^ (k + 1)) : (leb n).length = k + 1 :=
  Nat.le_antisymm (leb_length_le k n h') (leb_length_ge k n h)

theorem leb_length_one (n : Nat) (h' : n < 128) : (leb n).length = 1 := by
  unfold leb; rw [if_pos h']; rfl

/-! ### The reader -/

theorem or_shl_toNat {w : Nat} (acc : BitVec w) (x off : Nat) (hacc : acc.toNat < 2 ^ off) (hoff : off < w) :
    (acc ||| (BitVec.ofNat w x <<< off)).toNat = (acc.toNat + 2 ^ off * x) % 2 ^ w := by
  have hw : (2 ^ w : Nat) = 2 ^ off * 2 ^ (w - off) := by rw [← Nat.pow_add]; congr 1; omega
  have h1 : (BitVec.ofNat w x <<< off).toNat = 2 ^ off * (x % 2 ^ (w - off)) := by
    rw [BitVec.toNat_shiftLeft, BitVec.toNat_ofNat, Nat.shiftLeft_eq, Nat.mod_mul_mod, Nat.mul_comm x, hw,
      Nat.mul_mod_mul_left]
  rw [BitVec.toNat_or, h1, Nat.or_comm, ← Nat.two_pow_add_eq_or_of_lt hacc, hw]
  rw [Nat.add_comm acc.toNat]
  have h2 : (2 ^ off * x + acc.toNat) % (2 ^ off * 2 ^ (w - off)) = 2 ^ off * (x % 2 ^ (w - off)) + acc.toNat := by
    rw [Nat.mod_mul]
    have : (2 ^ off * x + acc.toNat) % 2 ^ off = acc.toNat := by
      rw [Nat.mul_add_mod, Nat.mod_eq_of_lt hacc]
    have h3 : (2 ^ off * x + acc.toNat) / 2 ^ off = x := by
      rw [Nat.mul_add_div (Nat.two_pow_pos off), Nat.div_eq_of_lt hacc]; omega
    rw [this, h3]; omega
  rw [h2]

theorem setWidth_lo {w : Nat} (b : Byte) : (b &&& 0x7f#8).setWidth w = BitVec.ofNat w (b.toNat % 128) := by
  apply BitVec.eq_of_toNat_eq
  rw [BitVec.toNat_setWidth, byte_lo, BitVec.toNat_ofNat]

/-- Semantics of the reader on a terminated varint that is not overlong. -/
theorem getLoop_varint (m : Mode) {w : Nat} (init : Bytes) (last : Byte) (rest : Bytes)
    (hi : ∀ b ∈ init, 128 ≤ b.toNat) (hl : last.toNat < 128) :
    ∀ (acc : BitVec w) (off : Nat), acc.toNat < 2 ^ off → off + 7 * init.length < w →
      getLoop m (init ++ last :: rest) acc off
        = .ok (BitVec.ofNat w (acc.toNat + 2 ^ off * lebValue (init ++ [last])), rest) := by
  induction init with
  | nil =>
    intro acc off hacc hoff
    have hoff' : off < w := by simpa using hoff
    simp only [List.nil_append, getLoop, shlChecked, if_pos hoff', (byte_hi last).2 hl, if_true]
    congr 2
    apply BitVec.eq_of_toNat_eq
    rw [setWidth_lo, or_shl_toNat acc _ off hacc hoff', BitVec.toNat_ofNat]
    simp [lebValue]
  | cons b bs ih =>
    intro acc off hacc hoff
    have hoff' : off < w := by simp at hoff; omega
    have hb : ¬ (b &&& 0x80#8 = 0#8) := by
      rw [byte_hi]; have := hi b (by simp); omega
    simp only [List.cons_append, getLoop, shlChecked, if_pos hoff', if_neg hb]
    have hnat := or_shl_toNat acc (b.toNat % 128) off hacc hoff'
    rw [← setWidth_lo] at hnat
    have hoff7 : off + 7 < w := by simp at hoff; omega
    have hlt : acc.toNat + 2 ^ off * (b.toNat % 128) < 2 ^ (off + 7) := by
      rw [Nat.pow_add]
      have : 2 ^ off * (b.toNat % 128) + 2 ^ off ≤ 2 ^ off * 128 := by
        have h := Nat.mul_le_mul_left (2 ^ off) (show b.toNat % 128 + 1 ≤ 128 by omega)
        rw [Nat.mul_add] at h; omega
      omega
    have hlt2 : acc.toNat + 2 ^ off * (b.toNat % 128) < 2 ^ w :=
      Nat.lt_of_lt_of_le hlt (Nat.pow_le_pow_right (by omega) (by omega))
    rw [Nat.mod_eq_of_lt hlt2] at hnat
    rw [ih (fun b hb => hi b (List.mem_cons_of_mem _ hb)) _ (off + 7) (by rw [hnat]; exact hlt)
      (by simp at hoff; omega), hnat]
    congr 3
    simp only [lebValue, Nat.pow_add]
    rw [Nat.mul_add, ← Nat.add_assoc, Nat.mul_assoc]

theorem getVarint_varint (m : Mode) {w : Nat} (enc rest : Bytes) (h : IsVarint enc)
    (hlen : 7 * enc.length < w + 7) :
    getVarint m w (enc ++ rest) = .ok (BitVec.ofNat w (lebValue enc), rest) := by
  obtain ⟨init, last, rfl, h2, h3⟩ := h
  unfold getVarint
  rw [List.append_assoc]
  have := getLoop_varint m init last rest h2 h3 0#w 0 (by simp) (by simp at hlen; omega)
  rw [show init ++ ([last] ++ rest) = init ++ last :: rest from rfl, this]
  simp

theorem getVarint_leb (m : Mode) {w : Nat} (n : Nat) (rest : Bytes) (h : n < 2 ^ w) (hw : 0 < w) :
    getVarint m w (leb n ++ rest) = .ok (BitVec.ofNat w n, rest) := by
  have hlen : 7 * (leb n).length < w + 7 := by
    have : n < 128 ^ ((w - 1) / 7 + 1) := by
      apply Nat.lt_of_lt_of_le h
      rw [show (128 : Nat) = 2 ^ 7 from rfl, ← Nat.pow_mul]
      exact Nat.pow_le_pow_right (by omega) (by omega)
    have := leb_length_le _ _ this
    omega
  have := getVarint_varint m (leb n) rest (leb_isVarint n) hlen
  rw [this, lebValue_leb]

theorem getVarint_putVarint (m : Mode) {w : Nat} (hw : 8 ≤ w) (v : BitVec w) (rest : Bytes) :
    getVarint m w (putVarint v ++ rest) = .ok (v, rest) := by
  rw [putVarint_eq_leb hw, getVarint_leb m _ _ v.isLt (by omega)]
  simp

/-! ### Sizes -/

theorem size32_eq (v : BitVec 32) : size32 v = (leb v.toNat).length := by
  unfold size32
  simp only [and_shl_allOnes_eq_zero_iff]
  have := v.isLt
  split
  · rename_i h; exact (leb_length_one _ h).symm
  split
  · rename_i h1 h; exact (leb_length_eq 1 _ (by omega) (by omega)).symm
  split
  · rename_i h2 h1 h; exact (leb_length_eq 2 _ (by omega) (by omega)).symm
  split
  · rename_i h2 h1 h; exact (leb_length_eq 3 _ (by omega) (by omega)).symm
  · exact (leb_length_eq 4 _ (by omega) (by omega)).symm

theorem sshiftRight_toNat_of_lt {w : Nat} (v : BitVec w) (k : Nat) (h : v.msb = false) :
    (v.sshiftRight k).toNat = v.toNat / 2 ^ k := by
  rw [BitVec.sshiftRight_eq_of_msb_false h, BitVec.toNat_ushiftRight, Nat.shiftRight_eq_div_pow]

theorem msb_false_of_lt {w : Nat} (v : BitVec w) (h : 2 * v.toNat < 2 ^ w) : v.msb = false :=
  BitVec.msb_eq_false_iff_two_mul_lt.2 h

theorem size64_eq (v : BitVec 64) : size64 v = (leb v.toNat).length := by
  unfold size64
  simp only [and_shl_allOnes_eq_zero_iff, ne_eq, Nat.not_lt]
  have hv := v.isLt
  by_cases h7 : v.toNat < 2 ^ 7
  · rw [if_pos h7]; exact (leb_length_one _ h7).symm
  rw [if_neg h7]
  have hslt : v.slt 0#64 = true ↔ 2 ^ 63 ≤ v.toNat := by
    rw [BitVec.slt_zero_eq_msb, BitVec.msb_eq_true_iff_two_mul_ge]; omega
  by_cases hneg : 2 ^ 63 ≤ v.toNat
  · rw [if_pos (hslt.2 hneg)]; exact (leb_length_eq 9 _ (by omega) (by omega)).symm
  rw [if_neg (fun h => hneg (hslt.1 h))]
  have hm : v.msb = false := msb_false_of_lt v (by omega)
  have h28 := sshiftRight_toNat_of_lt v 28 hm
  have h14 := sshiftRight_toNat_of_lt v 14 hm
  have hm28 : (v.sshiftRight 28).msb = false := msb_false_of_lt _ (by omega)
  have h42 := sshiftRight_toNat_of_lt (v.sshiftRight 28) 14 hm28
  by_cases h35 : 2 ^ 35 ≤ v.toNat
  · simp only [if_pos h35]
    by_cases h49 : 2 ^ 21 ≤ (v.sshiftRight 28).toNat
    · simp only [if_pos h49]
      split
      · exact (leb_length_eq 8 _ (by omega) (by omega)).symm
      · exact (leb_length_eq 7 _ (by omega) (by omega)).symm
    · simp only [if_neg h49]
      split
      · exact (leb_length_eq 6 _ (by omega) (by omega)).symm
      · exact (leb_length_eq 5 _ (by omega) (by omega)).symm
  · simp only [if_neg h35]
    by_cases h49 : 2 ^ 21 ≤ v.toNat
    · simp only [if_pos h49]
      split
      · exact (leb_length_eq 4 _ (by omega) (by omega)).symm
      · exact (leb_length_eq 3 _ (by omega) (by omega)).symm
    · simp only [if_neg h49]
      split
      · exact (leb_length_eq 2 _ (by omega) (by omega)).symm
      · exact (leb_length_eq 1 _ (by omega) (by omega)).symm

theorem Width.le_bits (w : Width) : 8 ≤ w.bits := by cases w <;> decide
theorem Width.bits_le (w : Width) : w.bits ≤ 64 := by cases w <;> decide

theorem uintSize_eq (w : Width) (v : BitVec w.bits) : uintSize w v = (putVarint v).length := by
  rw [putVarint_eq_leb w.le_bits]
  have hv := v.isLt
  cases w
  all_goals
    simp only [uintSize, size64_eq, size32_eq, BitVec.toNat_setWidth]
    rw [Nat.mod_eq_of_lt (Nat.lt_of_lt_of_le hv (by decide))]

end Steit
