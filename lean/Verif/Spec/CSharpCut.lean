import Verif.Spec.CSharp

/-!
# What a C# client shows of a value whose encoding is cut short

The first items, entries or fields, each of them whole: unlike Rust, the client does not read parts of nested values.
-/

namespace Steit.Spec

mutual
/-- An object nothing was read into. -/
def Unread : (t : Ty) → t.Cs → Prop
  | .uint _, c => c = 0
  | .sint _, c => c = 0
  | .bool, c => c = false
  | .string, c => c = none
  | .bytes, c => c = []
  | .vec _, c => c = []
  | .array _ _, c => c = []
  | .tuple _, _ => False
  | .option _, c => c = none
  | .box t, c => Unread t c
  | .hashMap _ _, _ => False
  | .list _, c => c = []
  | .map _ _, c => c = []
  | .struct _ _ fs, c => UnreadFields fs c
  | .enum _ _ fs _, c =>
    match c with
    | .inl c => UnreadFields fs c
    | .inr _ => False

/-- All fields. -/
def UnreadFields : (fs : Fields) → fs.Cs → Prop
  | .nil, _ => True
  | .cons _ _ t fs, c => Unread t c.1 ∧ UnreadFields fs c.2
end

/-- The first `n` fields show those of the value, into the others nothing was read. -/
def ShowsFirstFields : (fs : Fields) → Nat → fs.El → fs.Cs → Prop
  | fs, 0, _, c => UnreadFields fs c
  | .nil, _ + 1, _, _ => True
  | .cons _ _ t fs, n + 1, v, c => Shows t v.1 c.1 ∧ ShowsFirstFields fs n v.2 c.2

/-- The same variant, and its first `n` fields. -/
def ShowsFirstVariant : (vs : Variants) → Nat → vs.El → vs.Cs → Prop
  | .nil, _, v, _ => nomatch v
  | .cons _ _ fs vs, n, v, c =>
    match v, c with
    | .inl x, .inl y => ShowsFirstFields fs n x y
    | .inr x, .inr y => ShowsFirstVariant vs n x y
    | _, _ => False

/-- The object shows the first `n` parts of the value: characters are bytes, an `Option` has at most one part, numbers have no
parts. `ρ` is what is made of bytes that are not UTF-8. -/
def ShowsFirst (ρ : Bytes → Str) : (t : Ty) → Nat → t.El → t.Cs → Prop
  | .uint _, _, v, c => c = v
  | .sint _, _, v, c => c = v
  | .bool, _, v, c => c = v
  | .string, n, v, c => ∃ s, c = some s ∧ (∀ u : Str, u.bytes = v.bytes.take n → s = u) ∧
    ((∀ u : Str, u.bytes ≠ v.bytes.take n) → s = ρ (v.bytes.take n))
  | .bytes, n, v, c => c = v.take n
  | .vec t, n, v, c => List.Forall₂ (Shows t) (v.take n) c
  | .array _ t, n, v, c => List.Forall₂ (Shows t) (v.1.take n) c
  | .tuple _, _, _, _ => False
  | .option t, n, v, c => Option.Rel (Shows t) (if n = 0 then none else v) c
  | .box t, n, v, c => ShowsFirst ρ t n v c
  | .hashMap _ _, _, _, _ => False
  | .list t, n, v, c => List.Forall₂ (Shows t) (v.items.take n) c
  | .map _ t, n, v, c => ∀ k, Option.Rel (Shows t) ((v.entries.take n).lookup k) (c.lookup k)
  | .struct _ _ fs, n, v, c => ShowsFirstFields fs n v.fields c
  | .enum _ _ fs vs, n, v, c =>
    match v.val, c with
    | .inl x, .inl y => ShowsFirstFields fs n x y
    | .inr x, .inr y => ShowsFirstVariant vs n x y
    | _, _ => False

end Steit.Spec
