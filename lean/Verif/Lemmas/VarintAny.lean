import Verif.Lemmas.Varint

/-! # The integer readers on arbitrary input -/

namespace Steit
open Spec

/-- Every input starts with a terminated varint or has no terminating byte at all. -/
theorem varint_cases (bs : Bytes) :
    (∃ enc rest, bs = enc ++ rest ∧ IsVarint enc) ∨ (∀ b ∈ bs, 128 ≤ b.toNat) := by
  induction bs with
  | nil => right; simp
  | cons b bs ih =>
    by_cases hb : b.toNat < 128
    · left; exact ⟨[b], bs, rfl, [], b, rfl, by simp, hb⟩
    · rcases ih with ⟨enc, rest, rfl, init, last, rfl, h2, h3⟩ | h
      · left
        refine ⟨b :: (init ++ [last]), rest, rfl, b :: init, last, rfl, ?_, h3⟩
        intro x hx
        cases hx with
        | head => omega
        | tail _ hx => exact h2 x hx
      · right
        intro x hx
        cases hx with
        | head => omega
        | tail _ hx => exact h x hx

theorem shl_release {w : Nat} (x : BitVec w) (off : Nat) : ∃ y, shlChecked .release x off = .ok y := by
  unfold shlChecked; split <;> exact ⟨_, rfl⟩

theorem shl_lt (m : Mode) {w : Nat} (x : BitVec w) (off : Nat) (h : off < w) : ∃ y, shlChecked m x off = .ok y := by
  unfold shlChecked; rw [if_pos h]; exact ⟨_, rfl⟩

theorem shl_debug {w : Nat} (x : BitVec w) (off : Nat) (h : ¬ off < w) : shlChecked .debug x off = .error .panic := by
  unfold shlChecked; rw [if_neg h]

theorem getLoop_release {w : Nat} (init : Bytes) (last : Byte) (rest : Bytes)
    (hi : ∀ b ∈ init, 128 ≤ b.toNat) (hl : last.toNat < 128) :
    ∀ (acc : BitVec w) (off : Nat), ∃ v, getLoop .release (init ++ last :: rest) acc off = .ok (v, rest) := by
  induction init with
  | nil =>
    intro acc off
    obtain ⟨y, hy⟩ := shl_release ((last &&& 0x7f#8).setWidth w) off
    exact ⟨acc ||| y, by simp only [List.nil_append, getLoop, hy, (byte_hi last).2 hl, if_true]⟩
  | cons b init ih =>
    intro acc off
    obtain ⟨y, hy⟩ := shl_release ((b &&& 0x7f#8).setWidth w) off
    have hb : ¬ (b &&& 0x80#8 = 0#8) := by rw [byte_hi]; have := hi b (by simp); omega
    obtain ⟨v, hv⟩ := ih (fun x hx => hi x (by simp [hx])) (acc ||| y) (off + 7)
    exact ⟨v, by simp only [List.cons_append, getLoop, hy, hb, if_false, hv]⟩

theorem getLoop_debug_panic {w : Nat} (hi : Bytes) (b : Byte) (rest : Bytes) (h : ∀ b ∈ hi, 128 ≤ b.toNat) :
    ∀ (acc : BitVec w) (off : Nat), w ≤ off + 7 * hi.length →
      getLoop .debug (hi ++ b :: rest) acc off = .error .panic := by
  induction hi with
  | nil =>
    intro acc off ho
    simp only [List.nil_append, getLoop, shl_debug _ off (by simpa using ho)]
  | cons c hi ih =>
    intro acc off ho
    by_cases hoff : off < w
    · obtain ⟨y, hy⟩ := shl_lt .debug ((c &&& 0x7f#8).setWidth w) off hoff
      have hb : ¬ (c &&& 0x80#8 = 0#8) := by rw [byte_hi]; have := h c (by simp); omega
      simp only [List.cons_append, getLoop, hy, hb, if_false]
      exact ih (fun x hx => h x (by simp [hx])) _ _ (by simp only [List.length_cons] at ho; omega)
    · simp only [List.cons_append, getLoop, shl_debug _ off hoff]

theorem getLoop_eof (m : Mode) {w : Nat} (bs : Bytes) (h : ∀ b ∈ bs, 128 ≤ b.toNat) :
    ∀ (acc : BitVec w) (off : Nat), (m = .release ∨ off + 7 * bs.length < w + 7) →
      getLoop m bs acc off = .error .unexpectedEof := by
  induction bs with
  | nil => intro acc off _; rfl
  | cons b bs ih =>
    intro acc off ho
    have hb : ¬ (b &&& 0x80#8 = 0#8) := by rw [byte_hi]; have := h b (by simp); omega
    have hy : ∃ y, shlChecked m ((b &&& 0x7f#8).setWidth w) off = .ok y := by
      rcases ho with rfl | ho
      · exact shl_release _ _
      · exact shl_lt m _ _ (by simp only [List.length_cons] at ho; omega)
    obtain ⟨y, hy⟩ := hy
    simp only [getLoop, hy, hb, if_false]
    exact ih (fun x hx => h x (by simp [hx])) _ _ (by
      rcases ho with rfl | ho
      · left; rfl
      · right; simp only [List.length_cons] at ho; omega)

theorem byte_lo_ne (b : Byte) : (b &&& 0x7f#8 != 0#8) = decide (b.toNat % 128 ≠ 0) := by
  revert b; decide

theorem getBoolLoop_varint (init : Bytes) (last : Byte) (rest : Bytes)
    (hi : ∀ b ∈ init, 128 ≤ b.toNat) (hl : last.toNat < 128) :
    ∀ acc : Bool, getBoolLoop (init ++ last :: rest) acc =
      .ok (acc || decide (lebValue (init ++ [last]) ≠ 0), rest) := by
  induction init with
  | nil =>
    intro acc
    simp only [List.nil_append, getBoolLoop, (byte_hi last).2 hl, if_true, byte_lo_ne, lebValue]
    congr 3
  | cons b init ih =>
    intro acc
    have hb : ¬ (b &&& 0x80#8 = 0#8) := by rw [byte_hi]; have := hi b (by simp); omega
    simp only [List.cons_append, getBoolLoop, hb, if_false, byte_lo_ne, lebValue]
    rw [ih (fun x hx => hi x (by simp [hx]))]
    rw [Bool.or_assoc]
    congr 3
    rw [← Bool.decide_or]
    congr 1
    apply propext
    constructor
    · intro h; omega
    · intro h; omega

theorem getBoolLoop_eof (bs : Bytes) (h : ∀ b ∈ bs, 128 ≤ b.toNat) :
    ∀ acc, getBoolLoop bs acc = .error .unexpectedEof := by
  induction bs with
  | nil => intro acc; rfl
  | cons b bs ih =>
    intro acc
    have hb : ¬ (b &&& 0x80#8 = 0#8) := by rw [byte_hi]; have := h b (by simp); omega
    simp only [getBoolLoop, hb, if_false]
    exact ih (fun x hx => h x (by simp [hx])) _

end Steit
