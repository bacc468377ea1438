import Verif.Lemmas.Varint
import Verif.Lemmas.Zigzag
import Verif.Spec.Weight

/-! # The encoding of a value is not much bigger than the value -/

namespace Steit
open Spec

theorem framed_length_le {wire : Nat} {payload : Bytes} (h : payload.length < 2 ^ 32) :
    (framed wire payload).length ≤ payload.length + 5 := by
  unfold framed
  split
  · omega
  · have := leb_length_le 4 payload.length (by omega)
    rw [List.length_append]; omega

theorem flatMap_length_le {α : Type} {f : α → Bytes} {g : α → Nat} {b : Nat}
    (h : ∀ x, 24 * g x < b → (f x).length ≤ 24 * g x) : ∀ xs : List α, 24 * (xs.map g).sum < b →
      (xs.flatMap f).length ≤ 24 * (xs.map g).sum
  | [], _ => by simp
  | x :: xs, hb => by
    simp only [List.map_cons, List.sum_cons, List.flatMap_cons, List.length_append] at hb ⊢
    have := flatMap_length_le h xs (by omega)
    have := h x (by omega)
    omega

theorem zigzagNat_lt_64 (w : Width) (v : BitVec w.bits) : zigzagNat v.toInt < 2 ^ 64 := by
  rw [← zigzag_toNat (by cases w <;> decide) v]
  exact Nat.lt_of_lt_of_le (zigzag v).isLt (by cases w <;> decide)

theorem wireOf_le (t : Ty) : wireOf t ≤ 2 := by
  induction t using wireOf.induct <;> simp_all [wireOf]

mutual
theorem encode_le : (t : Ty) → ∀ v, 24 * weight t v < 2 ^ 32 → (encode t v).length + 12 ≤ 24 * weight t v
  | .uint w, v, _ => by
    have := leb_length_le 9 v.toNat (Nat.lt_of_lt_of_le v.isLt (by cases w <;> decide))
    simp only [encode, weight]; omega
  | .sint w, v, _ => by
    have := leb_length_le 9 (zigzagNat v.toInt) (Nat.lt_of_lt_of_le (zigzagNat_lt_64 w v) (by decide))
    simp only [encode, weight]; omega
  | .bool, v, _ => by
    have := leb_length_le 9 v.toNat (by cases v <;> decide)
    simp only [encode, weight]; omega
  | .string, v, _ => by simp only [encode, weight]; omega
  | .bytes, v, _ => by simp only [encode, weight]; omega
  | .vec t, v, h => by
    have := flatMap_length_le (nested_le t) v (by simp only [weight] at h; omega)
    simp only [encode, weight]; omega
  | .array _ t, v, h => by
    have := flatMap_length_le (nested_le t) v.1 (by simp only [weight] at h; omega)
    simp only [encode, weight]; omega
  | .tuple ts, v, h => by
    have := encodeTuple_le ts v (by simp only [weight] at h; omega)
    simp only [encode, weight]; omega
  | .option t, v, h => by
    have := flatMap_length_le (nested_le t) v.toList (by simp only [weight] at h; omega)
    simp only [encode, weight]; omega
  | .box t, v, h => encode_le t v h
  | .hashMap k w, v, h => by
    have := flatMap_length_le (f := fun e => framed (wireOf k) (encode k e.1) ++ framed (wireOf w) (encode w e.2))
      (g := fun e => weight k e.1 + weight w e.2) (b := 2 ^ 32) (fun e he => by
        have := nested_le k e.1 (by omega)
        have := nested_le w e.2 (by omega)
        rw [List.length_append]; omega) v (by simp only [weight] at h; omega)
    simp only [encode, weight]; omega
  | .list t, v, h => by
    have := flatMap_length_le (nested_le t) v.items (by simp only [weight] at h; omega)
    simp only [encode, weight]; omega
  | .map _ t, v, h => by
    have := flatMap_length_le (f := fun e : U32 × t.El => leb (e.1.toNat * 8 + wireOf t) ++ framed (wireOf t) (encode t e.2))
      (g := fun e => 1 + weight t e.2) (b := 2 ^ 32) (fun e he => by
        have := nested_le t e.2 (by omega)
        have := leb_length_le 5 (e.1.toNat * 8 + wireOf t) (by have := wireOf_le t; have := e.1.isLt; omega)
        rw [List.length_append]; omega) v.entries (by simp only [weight] at h; omega)
    simp only [encode, weight]; omega
  | .struct _ _ fs, v, h => by
    have := encodeFields_le fs v.fields (by simp only [weight] at h; omega)
    simp only [encode, weight]; omega
  | .enum _ _ fs vs, ⟨_, .inl x⟩, h => by
    have := encodeFields_le fs x (by simp only [weight] at h; omega)
    have := leb_length_le 4 0 (by decide)
    simp only [encode, weight, List.length_append]; omega
  | .enum _ _ fs vs, ⟨_, .inr x⟩, h => by
    have := encodeVariant_le vs x (by simp only [weight] at h; omega)
    simp only [encode, weight]; omega

theorem nested_le (t : Ty) (v : t.El) (h : 24 * weight t v < 2 ^ 32) :
    (framed (wireOf t) (encode t v)).length ≤ 24 * weight t v := by
  have h1 := encode_le t v h
  have h2 := framed_length_le (wire := wireOf t) (payload := encode t v) (by omega)
  omega

theorem encodeTuple_le : (ts : Tys) → ∀ v, 24 * weightTuple ts v < 2 ^ 32 →
    (encodeTuple ts v).length ≤ 24 * weightTuple ts v
  | .nil, _, _ => by simp [encodeTuple]
  | .cons t ts, v, h => by
    simp only [weightTuple] at h
    have := nested_le t v.1 (by omega)
    have := encodeTuple_le ts v.2 (by omega)
    simp only [encodeTuple, weightTuple, List.length_append]; omega

theorem encodeFields_le : (fs : Fields) → ∀ v, 24 * weightFields fs v < 2 ^ 32 →
    (encodeFields fs v).length ≤ 24 * weightFields fs v
  | .nil, _, _ => by simp [encodeFields]
  | .cons tag _ t fs, v, h => by
    simp only [weightFields] at h
    have h1 := encode_le t v.1 (by omega)
    have h2 := framed_length_le (wire := wireOf t) (payload := encode t v.1) (by omega)
    have := leb_length_le 5 (tag.toNat * 8 + wireOf t) (by have := wireOf_le t; have := tag.isLt; omega)
    have := encodeFields_le fs v.2 (by omega)
    simp only [encodeFields, weightFields, List.length_append]
    split
    · simp only [List.length_nil]; omega
    · rw [List.length_append]; omega

theorem encodeVariant_le : (vs : Variants) → ∀ v, 24 * weightVariant vs v < 2 ^ 32 →
    (encodeVariant vs v).length ≤ 24 * weightVariant vs v + 5
  | .nil, v, _ => nomatch v
  | .cons tag _ fs _, .inl x, h => by
    have := encodeFields_le fs x (by simp only [weightVariant] at h; omega)
    have := leb_length_le 4 tag.toNat (by have := tag.isLt; omega)
    simp only [encodeVariant, weightVariant, List.length_append]; omega
  | .cons _ _ _ vs, .inr x, h => encodeVariant_le vs x h
end

end Steit
