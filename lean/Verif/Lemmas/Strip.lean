import Verif.Lemmas.DecTy

/-! # Runtimes do not influence encodings -/

namespace Steit
open Spec

theorem flatMap_map_congr {α β : Type} {f : α → List β} {s : α → α} (h : ∀ x, f (s x) = f x) (xs : List α) :
    (xs.map s).flatMap f = xs.flatMap f := by
  induction xs with
  | nil => rfl
  | cons x xs ih => simp only [List.map_cons, List.flatMap_cons, h, ih]

theorem leftOut_strip (t : Ty) (v : t.El) (bs : Bytes) : leftOut t (strip t v) bs = leftOut t v bs := by
  cases t <;> rfl

mutual
theorem encode_strip : (t : Ty) → ∀ v, encode t (strip t v) = encode t v
  | .uint _, _ => rfl
  | .sint _, _ => rfl
  | .bool, _ => rfl
  | .string, _ => rfl
  | .bytes, _ => rfl
  | .vec t, v => flatMap_map_congr (fun x => by rw [encode_strip t]) v
  | .array _ t, v => flatMap_map_congr (fun x => by rw [encode_strip t]) v.1
  | .tuple ts, v => encode_stripTuple ts v
  | .option t, none => rfl
  | .option t, some x => by simp only [strip, encode, Option.map_some, Option.toList_some, List.flatMap_cons, List.flatMap_nil, encode_strip t]
  | .box t, v => encode_strip t v
  | .hashMap k w, v => flatMap_map_congr (s := fun e : k.El × w.El => (strip k e.1, strip w e.2))
    (fun x => by simp only [encode_strip k, encode_strip w]) v
  | .list t, v => flatMap_map_congr (fun x => by rw [encode_strip t]) v.items
  | .map _ t, v => flatMap_map_congr (s := fun e : U32 × t.El => (e.1, strip t e.2))
    (fun x => by simp only [encode_strip t]) v.entries
  | .struct _ _ fs, v => encode_stripFields fs v.fields
  | .enum _ _ fs _, ⟨_, .inl x⟩ => by simp only [strip, encode, encode_stripFields fs]
  | .enum _ _ _ vs, ⟨_, .inr x⟩ => by simp only [strip, encode, encode_stripVariant vs]

theorem encode_stripTuple : (ts : Tys) → ∀ v, encodeTuple ts (stripTuple ts v) = encodeTuple ts v
  | .nil, _ => rfl
  | .cons t ts, v => by simp only [stripTuple, encodeTuple, encode_strip t, encode_stripTuple ts]

theorem encode_stripFields : (fs : Fields) → ∀ v, encodeFields fs (stripFields fs v) = encodeFields fs v
  | .nil, _ => rfl
  | .cons _ _ t fs, v => by
    simp only [stripFields, encodeFields, encode_strip t, encode_stripFields fs, leftOut_strip]

theorem encode_stripVariant : (vs : Variants) → ∀ v, encodeVariant vs (stripVariant vs v) = encodeVariant vs v
  | .nil, v => nomatch v
  | .cons _ _ fs _, .inl x => by simp only [stripVariant, encodeVariant, encode_stripFields fs]
  | .cons _ _ _ vs, .inr x => by simp only [stripVariant, encodeVariant, encode_stripVariant vs]
end

theorem encode_same {t : Ty} {a b : t.El} (h : Same t a b) : encode t a = encode t b := by
  rw [← encode_strip t a, ← encode_strip t b]; exact congrArg _ h

theorem forall_mem_map {α : Type} {P : α → Prop} {s : α → α} (h : ∀ x, P (s x) ↔ P x) (xs : List α) :
    (∀ x ∈ xs.map s, P x) ↔ ∀ x ∈ xs, P x := by
  constructor
  · intro hx x hm; exact (h x).1 (hx _ (List.mem_map_of_mem hm))
  · intro hx x hm
    obtain ⟨y, hy, rfl⟩ := List.mem_map.1 hm
    exact (h y).2 (hx y hy)

mutual
theorem writable_strip : (t : Ty) → ∀ v, Writable t (strip t v) ↔ Writable t v
  | .uint _, _ => Iff.rfl
  | .sint _, _ => Iff.rfl
  | .bool, _ => Iff.rfl
  | .string, _ => Iff.rfl
  | .bytes, _ => Iff.rfl
  | .vec t, v => forall_mem_map (writable_strip t) v
  | .array _ t, v => forall_mem_map (writable_strip t) v.1
  | .tuple ts, v => writable_stripTuple ts v
  | .option t, none => by simp [strip, Writable]
  | .option t, some x => by simp [strip, Writable, writable_strip t]
  | .box t, v => writable_strip t v
  | .hashMap k w, v => forall_mem_map (P := fun e : k.El × w.El => Writable k e.1 ∧ Writable w e.2)
    (s := fun e => (strip k e.1, strip w e.2))
    (fun x => by simp only [writable_strip k, writable_strip w]) v
  | .list t, v => forall_mem_map (writable_strip t) v.items
  | .map _ t, v => forall_mem_map (P := fun e : U32 × t.El => e.1.toNat < 2 ^ 29 ∧ Writable t e.2)
    (s := fun e => (e.1, strip t e.2)) (fun x => by simp only [writable_strip t]) v.entries
  | .struct _ _ fs, v => writable_stripFields fs v.fields
  | .enum _ _ fs _, ⟨_, .inl x⟩ => writable_stripFields fs x
  | .enum _ _ _ vs, ⟨_, .inr x⟩ => writable_stripVariant vs x

theorem writable_stripTuple : (ts : Tys) → ∀ v, WritableTuple ts (stripTuple ts v) ↔ WritableTuple ts v
  | .nil, _ => Iff.rfl
  | .cons t ts, v => by simp only [stripTuple, WritableTuple, writable_strip t, writable_stripTuple ts]

theorem writable_stripFields : (fs : Fields) → ∀ v, WritableFields fs (stripFields fs v) ↔ WritableFields fs v
  | .nil, _ => Iff.rfl
  | .cons _ _ t fs, v => by simp only [stripFields, WritableFields, writable_strip t, writable_stripFields fs]

theorem writable_stripVariant : (vs : Variants) → ∀ v, WritableVariant vs (stripVariant vs v) ↔ WritableVariant vs v
  | .nil, v => nomatch v
  | .cons _ _ fs _, .inl x => writable_stripFields fs x
  | .cons _ _ _ vs, .inr x => writable_stripVariant vs x
end

theorem writable_same {t : Ty} {a b : t.El} (h : Same t a b) : Writable t a ↔ Writable t b := by
  rw [← writable_strip t a, ← writable_strip t b, show strip t a = strip t b from h]

mutual
theorem strip_strip : (t : Ty) → ∀ v, strip t (strip t v) = strip t v
  | .uint _, _ => rfl
  | .sint _, _ => rfl
  | .bool, _ => rfl
  | .string, _ => rfl
  | .bytes, _ => rfl
  | .vec t, v => by
    simp only [strip, List.map_map]; exact List.map_congr_left (fun x _ => strip_strip t x)
  | .array _ t, v => by
    apply Subtype.ext
    simp only [strip, List.map_map]; exact List.map_congr_left (fun x _ => strip_strip t x)
  | .tuple ts, v => strip_stripTuple ts v
  | .option t, none => rfl
  | .option t, some x => by simp only [strip, Option.map_some, strip_strip t]
  | .box t, v => strip_strip t v
  | .hashMap k w, v => by
    simp only [strip, List.map_map]
    exact List.map_congr_left (fun x _ => by simp only [Function.comp_apply, strip_strip k, strip_strip w])
  | .list t, v => by
    simp only [strip, List.map_map]
    exact congrArg _ (List.map_congr_left (fun x _ => strip_strip t x))
  | .map _ t, v => by
    simp only [strip, List.map_map]
    exact congrArg _ (List.map_congr_left (fun x _ => by simp only [Function.comp_apply, strip_strip t]))
  | .struct _ _ fs, v => by simp only [strip, strip_stripFields fs]
  | .enum _ _ fs _, ⟨_, .inl x⟩ => by simp only [strip, strip_stripFields fs]
  | .enum _ _ _ vs, ⟨_, .inr x⟩ => by simp only [strip, strip_stripVariant vs]

theorem strip_stripTuple : (ts : Tys) → ∀ v, stripTuple ts (stripTuple ts v) = stripTuple ts v
  | .nil, _ => rfl
  | .cons t ts, v => by simp only [stripTuple, strip_strip t, strip_stripTuple ts]

theorem strip_stripFields : (fs : Fields) → ∀ v, stripFields fs (stripFields fs v) = stripFields fs v
  | .nil, _ => rfl
  | .cons _ _ t fs, v => by simp only [stripFields, strip_strip t, strip_stripFields fs]

theorem strip_stripVariant : (vs : Variants) → ∀ v, stripVariant vs (stripVariant vs v) = stripVariant vs v
  | .nil, v => nomatch v
  | .cons _ _ fs _, .inl x => by simp only [stripVariant, strip_stripFields fs]
  | .cons _ _ _ vs, .inr x => by simp only [stripVariant, strip_stripVariant vs]
end

end Steit
