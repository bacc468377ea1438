import Verif.Spec.Utf8
import Verif.Model.Utf8

/-! # The byte table of `from_utf8` accepts exactly encoded scalar values -/

namespace Steit
open Spec

theorem byte_toNat (n : Nat) (h : n < 256) : (BitVec.ofNat 8 n).toNat = n := by
  rw [BitVec.toNat_ofNat]; exact Nat.mod_eq_of_lt h

theorem utf8Valid_cons1 (b0 : Byte) (rest : Bytes) (h : b0.toNat < 0x80) : utf8Valid (b0 :: rest) = utf8Valid rest := by
  conv => lhs; unfold utf8Valid
  rw [if_pos h]

theorem utf8Valid_cons2 (b0 b1 : Byte) (rest : Bytes) (h : ¬ b0.toNat < 0x80) (h' : 0xc2 ≤ b0.toNat ∧ b0.toNat ≤ 0xdf) :
    utf8Valid (b0 :: b1 :: rest) = (isCont b1 && utf8Valid rest) := by
  conv => lhs; unfold utf8Valid
  rw [if_neg h]
  simp only
  rw [if_pos (by simpa using h')]

theorem utf8Valid_cons3 (b0 b1 b2 : Byte) (rest : Bytes) (h' : 0xe0 ≤ b0.toNat ∧ b0.toNat ≤ 0xef) :
    utf8Valid (b0 :: b1 :: b2 :: rest) =
      ((isCont b1 && (b0.toNat != 0xe0 || 0xa0 ≤ b1.toNat) && (b0.toNat != 0xed || b1.toNat ≤ 0x9f))
        && isCont b2 && utf8Valid rest) := by
  conv => lhs; unfold utf8Valid
  rw [if_neg (by omega)]
  simp only
  rw [if_neg (by simp; omega), if_pos (by simpa using h')]

theorem utf8Valid_cons4 (b0 b1 b2 b3 : Byte) (rest : Bytes) (h' : 0xf0 ≤ b0.toNat ∧ b0.toNat ≤ 0xf4) :
    utf8Valid (b0 :: b1 :: b2 :: b3 :: rest) =
      ((isCont b1 && (b0.toNat != 0xf0 || 0x90 ≤ b1.toNat) && (b0.toNat != 0xf4 || b1.toNat ≤ 0x8f))
        && isCont b2 && isCont b3 && utf8Valid rest) := by
  conv => lhs; unfold utf8Valid
  rw [if_neg (by omega)]
  simp only
  rw [if_neg (by simp; omega), if_neg (by simp; omega), if_pos (by simpa using h')]

theorem utf8Valid_char (c : Nat) (hc : Scalar c) (rest : Bytes) : utf8Valid (utf8Char c ++ rest) = utf8Valid rest := by
  unfold utf8Char
  split
  · next h => rw [List.cons_append, utf8Valid_cons1 _ _ (by rw [byte_toNat c (by omega)]; exact h)]; rfl
  · split
    · next h0 h =>
      have e0 := byte_toNat (0xc0 + c / 64) (by omega)
      have e1 := byte_toNat (0x80 + c % 64) (by omega)
      rw [List.cons_append, List.cons_append, utf8Valid_cons2 _ _ _ (by omega) (by omega)]
      simp only [isCont, e1, List.nil_append]
      have : (decide (0x80 ≤ 0x80 + c % 64) && decide (0x80 + c % 64 ≤ 0xbf)) = true := by simp; omega
      rw [this, Bool.true_and]
    · split
      · next h0 h1 h =>
        have e0 := byte_toNat (0xe0 + c / 4096) (by omega)
        have e1 := byte_toNat (0x80 + c / 64 % 64) (by omega)
        have e2 := byte_toNat (0x80 + c % 64) (by omega)
        rw [List.cons_append, List.cons_append, List.cons_append, utf8Valid_cons3 _ _ _ _ (by omega)]
        simp only [isCont, e0, e1, e2, List.nil_append]
        have h2 : (decide (0x80 ≤ 0x80 + c % 64) && decide (0x80 + c % 64 ≤ 0xbf)) = true := by simp; omega
        have h3 : (decide (0x80 ≤ 0x80 + c / 64 % 64) && decide (0x80 + c / 64 % 64 ≤ 0xbf)) = true := by simp; omega
        have h4 : (0xe0 + c / 4096 != 0xe0 || decide (0xa0 ≤ 0x80 + c / 64 % 64)) = true := by
          simp only [Bool.or_eq_true, bne_iff_ne, decide_eq_true_eq]; omega
        have h5 : (0xe0 + c / 4096 != 0xed || decide (0x80 + c / 64 % 64 ≤ 0x9f)) = true := by
          unfold Scalar at hc
          simp only [Bool.or_eq_true, bne_iff_ne, decide_eq_true_eq]; omega
        rw [h2, h3, h4, h5]
        rfl
      · next h0 h1 h =>
        have hc2 : c ≤ 0x10ffff := by unfold Scalar at hc; omega
        have e0 := byte_toNat (0xf0 + c / 262144) (by omega)
        have e1 := byte_toNat (0x80 + c / 4096 % 64) (by omega)
        have e2 := byte_toNat (0x80 + c / 64 % 64) (by omega)
        have e3 := byte_toNat (0x80 + c % 64) (by omega)
        rw [List.cons_append, List.cons_append, List.cons_append, List.cons_append, utf8Valid_cons4 _ _ _ _ _ (by omega)]
        simp only [isCont, e0, e1, e2, e3, List.nil_append]
        have h2 : (decide (0x80 ≤ 0x80 + c % 64) && decide (0x80 + c % 64 ≤ 0xbf)) = true := by simp; omega
        have h3 : (decide (0x80 ≤ 0x80 + c / 64 % 64) && decide (0x80 + c / 64 % 64 ≤ 0xbf)) = true := by simp; omega
        have h6 : (decide (0x80 ≤ 0x80 + c / 4096 % 64) && decide (0x80 + c / 4096 % 64 ≤ 0xbf)) = true := by simp; omega
        have h4 : (0xf0 + c / 262144 != 0xf0 || decide (0x90 ≤ 0x80 + c / 4096 % 64)) = true := by
          simp only [Bool.or_eq_true, bne_iff_ne, decide_eq_true_eq]; omega
        have h5 : (0xf0 + c / 262144 != 0xf4 || decide (0x80 + c / 4096 % 64 ≤ 0x8f)) = true := by
          simp only [Bool.or_eq_true, bne_iff_ne, decide_eq_true_eq]; omega
        rw [h2, h3, h4, h5, h6]
        rfl

theorem utf8Valid_utf8 (cs : List Nat) (h : ∀ c ∈ cs, Scalar c) : utf8Valid (utf8 cs) = true := by
  induction cs with
  | nil => rfl
  | cons c cs ih =>
    show utf8Valid (utf8Char c ++ utf8 cs) = true
    rw [utf8Valid_char c (h c (by simp))]
    exact ih (fun c hc => h c (by simp [hc]))

theorem utf8Char2 (b b1 : Byte) (h : 0xc2 ≤ b.toNat ∧ b.toNat ≤ 0xdf) (h1 : 0x80 ≤ b1.toNat ∧ b1.toNat ≤ 0xbf) :
    Scalar ((b.toNat - 0xc0) * 64 + (b1.toNat - 0x80)) ∧ utf8Char ((b.toNat - 0xc0) * 64 + (b1.toNat - 0x80)) = [b, b1] := by
  refine ⟨.inl (by omega), ?_⟩
  unfold utf8Char
  rw [if_neg (by omega), if_pos (by omega)]
  simp only [List.cons.injEq, and_true]
  refine ⟨?_, ?_⟩ <;> apply BitVec.eq_of_toNat_eq <;> rw [byte_toNat _ (by omega)] <;> omega

theorem utf8Char3 (b b1 b2 : Byte) (h : 0xe0 ≤ b.toNat ∧ b.toNat ≤ 0xef) (h1 : 0x80 ≤ b1.toNat ∧ b1.toNat ≤ 0xbf)
    (h2 : 0x80 ≤ b2.toNat ∧ b2.toNat ≤ 0xbf) (hlo : b.toNat = 0xe0 → 0xa0 ≤ b1.toNat)
    (hhi : b.toNat = 0xed → b1.toNat ≤ 0x9f) :
    Scalar ((b.toNat - 0xe0) * 4096 + (b1.toNat - 0x80) * 64 + (b2.toNat - 0x80)) ∧
      utf8Char ((b.toNat - 0xe0) * 4096 + (b1.toNat - 0x80) * 64 + (b2.toNat - 0x80)) = [b, b1, b2] := by
  refine ⟨by unfold Scalar; omega, ?_⟩
  unfold utf8Char
  rw [if_neg (by omega), if_neg (by omega), if_pos (by omega)]
  simp only [List.cons.injEq, and_true]
  refine ⟨?_, ?_, ?_⟩ <;> apply BitVec.eq_of_toNat_eq <;> rw [byte_toNat _ (by omega)] <;> omega

theorem utf8Char4 (b b1 b2 b3 : Byte) (h : 0xf0 ≤ b.toNat ∧ b.toNat ≤ 0xf4) (h1 : 0x80 ≤ b1.toNat ∧ b1.toNat ≤ 0xbf)
    (h2 : 0x80 ≤ b2.toNat ∧ b2.toNat ≤ 0xbf) (h3 : 0x80 ≤ b3.toNat ∧ b3.toNat ≤ 0xbf)
    (hlo : b.toNat = 0xf0 → 0x90 ≤ b1.toNat) (hhi : b.toNat = 0xf4 → b1.toNat ≤ 0x8f) :
    Scalar ((b.toNat - 0xf0) * 262144 + (b1.toNat - 0x80) * 4096 + (b2.toNat - 0x80) * 64 + (b3.toNat - 0x80)) ∧
      utf8Char ((b.toNat - 0xf0) * 262144 + (b1.toNat - 0x80) * 4096 + (b2.toNat - 0x80) * 64 + (b3.toNat - 0x80)) =
        [b, b1, b2, b3] := by
  refine ⟨by unfold Scalar; omega, ?_⟩
  unfold utf8Char
  rw [if_neg (by omega), if_neg (by omega), if_neg (by omega)]
  simp only [List.cons.injEq, and_true]
  refine ⟨?_, ?_, ?_, ?_⟩ <;> apply BitVec.eq_of_toNat_eq <;> rw [byte_toNat _ (by omega)] <;> omega

/-- Valid bytes start with an encoded scalar value. -/
theorem utf8Valid_head (b : Byte) (bs : Bytes) (h : utf8Valid (b :: bs) = true) :
    ∃ c rest, Scalar c ∧ b :: bs = utf8Char c ++ rest ∧ utf8Valid rest = true := by
  unfold utf8Valid at h
  split at h
  · next h0 => exact ⟨b.toNat, bs, .inl (by omega), by simp [utf8Char, h0], h⟩
  · next h0 =>
    split at h
    · cases h
    · next b1 r1 =>
      split at h
      · next h1 =>
        simp only [isCont, Bool.and_eq_true, decide_eq_true_eq] at h h1
        obtain ⟨g1, g2⟩ := utf8Char2 b b1 h1 h.1
        exact ⟨_, r1, g1, by rw [g2]; rfl, h.2⟩
      · split at h
        · cases h
        · next b2 r2 =>
          split at h
          · next h1 =>
            simp only [isCont, Bool.and_eq_true, decide_eq_true_eq, Bool.or_eq_true, bne_iff_ne] at h h1
            obtain ⟨⟨⟨⟨a1, a2⟩, a3⟩, a4⟩, a5⟩ := h
            obtain ⟨g1, g2⟩ := utf8Char3 b b1 b2 h1 a1 a4 (by omega) (by omega)
            exact ⟨_, r2, g1, by rw [g2]; rfl, a5⟩
          · split at h
            · cases h
            · next b3 r3 =>
              split at h
              · next h1 =>
                simp only [isCont, Bool.and_eq_true, decide_eq_true_eq, Bool.or_eq_true, bne_iff_ne] at h h1
                obtain ⟨⟨⟨⟨⟨a1, a2⟩, a3⟩, a4⟩, a5⟩, a6⟩ := h
                obtain ⟨g1, g2⟩ := utf8Char4 b b1 b2 b3 h1 a1 a4 a5 (by omega) (by omega)
                exact ⟨_, r3, g1, by rw [g2]; rfl, a6⟩
              · cases h

theorem utf8Char_ne (c : Nat) : utf8Char c ≠ [] := by
  unfold utf8Char; split
  · simp
  · split
    · simp
    · split <;> simp

theorem utf8_of_valid (n : Nat) : ∀ bs : Bytes, bs.length ≤ n → utf8Valid bs = true →
    ∃ cs, (∀ c ∈ cs, Scalar c) ∧ bs = utf8 cs := by
  induction n with
  | zero =>
    intro bs hl _
    have : bs = [] := List.length_eq_zero_iff.1 (by omega)
    exact ⟨[], by simp, by rw [this]; rfl⟩
  | succ n ih =>
    intro bs hl h
    cases bs with
    | nil => exact ⟨[], by simp, rfl⟩
    | cons b bs =>
      obtain ⟨c, rest, h1, h2, h3⟩ := utf8Valid_head b bs h
      have hp := List.length_pos_iff.2 (utf8Char_ne c)
      have hl2 := congrArg List.length h2
      simp only [List.length_cons, List.length_append] at hl2 hl
      obtain ⟨cs, g1, g2⟩ := ih rest (by omega) h3
      refine ⟨c :: cs, ?_, ?_⟩
      · intro x hx
        rcases List.mem_cons.1 hx with rfl | hx
        · exact h1
        · exact g1 x hx
      · rw [h2, g2]; rfl

/-! ### A text is determined by its bytes -/

theorem utf8Char_inj {c c' : Nat} (h : Scalar c) (h' : Scalar c') {r r' : Bytes}
    (he : utf8Char c ++ r = utf8Char c' ++ r') : c = c' ∧ r = r' := by
  have hc2 : c ≤ 0x10ffff := by unfold Scalar at h; omega
  have hc2' : c' ≤ 0x10ffff := by unfold Scalar at h'; omega
  unfold utf8Char at he
  split at he <;> split at he <;> (try split at he) <;> (try split at he) <;> (try split at he) <;> (try split at he) <;>
    simp only [List.cons_append, List.nil_append, List.cons.injEq, ← BitVec.toNat_inj, BitVec.toNat_ofNat] at he <;>
    first
      | (exfalso; omega)
      | (refine ⟨by omega, ?_⟩; simp only [he])

theorem utf8_inj : ∀ (cs cs' : List Nat), (∀ c ∈ cs, Scalar c) → (∀ c ∈ cs', Scalar c) → utf8 cs = utf8 cs' → cs = cs' := by
  intro cs
  induction cs with
  | nil =>
    intro cs' _ _ h
    cases cs' with
    | nil => rfl
    | cons c cs' =>
      have : utf8Char c ++ utf8 cs' = [] := h.symm
      exact absurd (List.append_eq_nil_iff.1 this).1 (utf8Char_ne c)
  | cons c cs ih =>
    intro cs' h1 h2 h
    cases cs' with
    | nil =>
      have : utf8Char c ++ utf8 cs = [] := h
      exact absurd (List.append_eq_nil_iff.1 this).1 (utf8Char_ne c)
    | cons c' cs' =>
      obtain ⟨e1, e2⟩ := utf8Char_inj (h1 c (by simp)) (h2 c' (by simp)) h
      rw [e1, ih cs' (fun x hx => h1 x (by simp [hx])) (fun x hx => h2 x (by simp [hx])) e2]

end Steit
