import Verif.Spec.Leb128
import Verif.Model.Ty

/-!
# Specification of the wire format

What bytes a value stands for, written down directly (no sizes, no caches, no build modes, no fuel), by recursion over
the type. Only `Ty` and `Ty.El` are shared with the model.
-/

namespace Steit.Spec

/-- Wire type: 0 for a bare varint, 2 for length-prefixed data. Boxes are transparent. -/
def wireOf : Ty → Nat
  | .uint _ => 0
  | .sint _ => 0
  | .bool => 0
  | .box t => wireOf t
  | _ => 2

/-- A value nested in another one: varints stand for themselves, everything else is prefixed by its length. -/
def framed (wire : Nat) (payload : Bytes) : Bytes :=
  if wire = 0 then payload else leb payload.length ++ payload

/-- Is the field left out of the encoding? Integers and bools: exactly when zero/false; anything else: exactly when its
encoding is empty. -/
def leftOut : (t : Ty) → t.El → (payload : Bytes) → Bool
  | .uint _, v, _ => v == 0
  | .sint _, v, _ => v == 0
  | .bool, v, _ => v == false
  | _, _, payload => payload.isEmpty

mutual
/-- The encoding of a value. -/
def encode : (t : Ty) → t.El → Bytes
  | .uint _, v => leb v.toNat
  | .sint _, v => leb (zigzagNat v.toInt)
  | .bool, v => leb v.toNat
  | .string, v => v.bytes
  | .bytes, v => v
  | .vec t, v => v.flatMap (fun x => framed (wireOf t) (encode t x))
  | .array _ t, v => v.1.flatMap (fun x => framed (wireOf t) (encode t x))
  | .tuple ts, v => encodeTuple ts v
  | .option t, v => v.toList.flatMap (fun x => framed (wireOf t) (encode t x))
  | .box t, v => encode t v
  | .hashMap k w, v => v.flatMap (fun e => framed (wireOf k) (encode k e.1) ++ framed (wireOf w) (encode w e.2))
  | .list t, v => v.items.flatMap (fun x => framed (wireOf t) (encode t x))
  | .map _ t, v => v.entries.flatMap (fun e => leb (e.1.toNat * 8 + wireOf t) ++ framed (wireOf t) (encode t e.2))
  | .struct _ _ fs, v => encodeFields fs v.fields
  | .enum _ _ fs vs, v =>
    match v.val with
    | .inl x => leb 0 ++ encodeFields fs x
    | .inr x => encodeVariant vs x

/-- The components of a tuple one after the other. -/
def encodeTuple : (ts : Tys) → ts.El → Bytes
  | .nil, _ => []
  | .cons t ts, v => framed (wireOf t) (encode t v.1) ++ encodeTuple ts v.2

/-- The fields in declaration order, each with its key, except those left out. -/
def encodeFields : (fs : Fields) → fs.El → Bytes
  | .nil, _ => []
  | .cons tag _ t fs, v =>
    (if leftOut t v.1 (encode t v.1) then []
      else leb (tag.toNat * 8 + wireOf t) ++ framed (wireOf t) (encode t v.1))
    ++ encodeFields fs v.2

/-- The tag of the variant, then its fields. -/
def encodeVariant : (vs : Variants) → vs.El → Bytes
  | .nil, v => nomatch v
  | .cons tag _ fs vs, v =>
    match v with
    | .inl x => leb tag.toNat ++ encodeFields fs x
    | .inr x => encodeVariant vs x
end

/-! ## Equality up to runtimes -/

mutual
/-- Forget all runtimes inside a value. Two values with the same `strip` differ only in loggers and paths. -/
def strip : (t : Ty) → t.El → t.El
  | .uint _, v => v
  | .sint _, v => v
  | .bool, v => v
  | .string, v => v
  | .bytes, v => v
  | .vec t, v => v.map (strip t)
  | .array _ t, v => ⟨v.1.map (strip t), by simp [v.2]⟩
  | .tuple ts, v => stripTuple ts v
  | .option t, v => v.map (strip t)
  | .box t, v => strip t v
  | .hashMap k w, v => v.map (fun e => (strip k e.1, strip w e.2))
  | .list t, v => ⟨Rt.dflt, v.items.map (strip t)⟩
  | .map _ t, v => ⟨Rt.dflt, v.entries.map (fun e => (e.1, strip t e.2))⟩
  | .struct _ _ fs, v => ⟨Rt.dflt, stripFields fs v.fields⟩
  | .enum _ _ fs vs, v =>
    ⟨Rt.dflt, match v.val with
      | .inl x => .inl (stripFields fs x)
      | .inr x => .inr (stripVariant vs x)⟩

/-- Component-wise. -/
def stripTuple : (ts : Tys) → ts.El → ts.El
  | .nil, v => v
  | .cons t ts, v => (strip t v.1, stripTuple ts v.2)

/-- Field-wise. -/
def stripFields : (fs : Fields) → fs.El → fs.El
  | .nil, v => v
  | .cons _ _ t fs, v => (strip t v.1, stripFields fs v.2)

/-- In the current variant. -/
def stripVariant : (vs : Variants) → vs.El → vs.El
  | .nil, v => v
  | .cons _ _ fs vs, v =>
    match v with
    | .inl x => .inl (stripFields fs x)
    | .inr x => .inr (stripVariant vs x)
end

/-- Equal up to runtimes. -/
def Same (t : Ty) (a b : t.El) : Prop := strip t a = strip t b

/-! ## Values the wire format can carry -/

mutual
/-- A value that can be written at all: the keys of all state maps in it are at most 2^29 - 1, the largest field number. -/
def Writable : (t : Ty) → t.El → Prop
  | .vec t, v => ∀ x ∈ v, Writable t x
  | .array _ t, v => ∀ x ∈ v.1, Writable t x
  | .tuple ts, v => WritableTuple ts v
  | .option t, v => ∀ x ∈ v, Writable t x
  | .box t, v => Writable t v
  | .hashMap k w, v => ∀ e ∈ v, Writable k e.1 ∧ Writable w e.2
  | .list t, v => ∀ x ∈ v.items, Writable t x
  | .map _ t, v => ∀ e ∈ v.entries, e.1.toNat < 2 ^ 29 ∧ Writable t e.2
  | .struct _ _ fs, v => WritableFields fs v.fields
  | .enum _ _ fs vs, v =>
    match v.val with
    | .inl x => WritableFields fs x
    | .inr x => WritableVariant vs x
  | .uint _, _ => True
  | .sint _, _ => True
  | .bool, _ => True
  | .string, _ => True
  | .bytes, _ => True

/-- Component-wise. -/
def WritableTuple : (ts : Tys) → ts.El → Prop
  | .nil, _ => True
  | .cons t ts, v => Writable t v.1 ∧ WritableTuple ts v.2

/-- Field-wise. -/
def WritableFields : (fs : Fields) → fs.El → Prop
  | .nil, _ => True
  | .cons _ _ t fs, v => Writable t v.1 ∧ WritableFields fs v.2

/-- In the current variant. -/
def WritableVariant : (vs : Variants) → vs.El → Prop
  | .nil, _ => True
  | .cons _ _ fs vs, v =>
    match v with
    | .inl x => WritableFields fs x
    | .inr x => WritableVariant vs x
end

mutual
/-- A value the wire format carries faithfully: map keys are within the limits of field numbers and of the key type (see
`keysOk`), hash map keys are distinct as the standard library ensures, and signed integers are within the half of their
range on which decoding inverts encoding (see `C04`). -/
def Carried : (t : Ty) → t.El → Prop
  | .uint _, _ => True
  | .sint w, v => -(2 ^ (w.bits - 2) : Int) ≤ v.toInt ∧ v.toInt < (2 ^ (w.bits - 2) : Int)
  | .bool, _ => True
  | .string, _ => True
  | .bytes, _ => True
  | .vec t, v => ∀ x ∈ v, Carried t x
  | .array _ t, v => ∀ x ∈ v.1, Carried t x
  | .tuple ts, v => CarriedTuple ts v
  | .option t, v => ∀ x ∈ v, Carried t x
  | .box t, v => Carried t v
  | .hashMap k w, v =>
    (∀ e ∈ v, Carried k e.1 ∧ Carried w e.2) ∧ v.Pairwise (fun e e' => k.eq e.1 e'.1 = false)
  | .list t, v => ∀ x ∈ v.items, Carried t x
  | .map kt t, v =>
    (∀ e ∈ v.entries, e.1.toNat ≤ kt.max ∧ e.1.toNat < 2 ^ 29 ∧ Carried t e.2) ∧ (v.entries.map (·.1)).Nodup
  | .struct _ _ fs, v => CarriedFields fs v.fields
  | .enum _ _ fs vs, v =>
    match v.val with
    | .inl x => CarriedFields fs x
    | .inr x => CarriedVariant vs x

/-- Component-wise. -/
def CarriedTuple : (ts : Tys) → ts.El → Prop
  | .nil, _ => True
  | .cons t ts, v => Carried t v.1 ∧ CarriedTuple ts v.2

/-- Field-wise. -/
def CarriedFields : (fs : Fields) → fs.El → Prop
  | .nil, _ => True
  | .cons _ _ t fs, v => Carried t v.1 ∧ CarriedFields fs v.2

/-- In the current variant. -/
def CarriedVariant : (vs : Variants) → vs.El → Prop
  | .nil, _ => True
  | .cons _ _ fs vs, v =>
    match v with
    | .inl x => CarriedFields fs x
    | .inr x => CarriedVariant vs x
end

end Steit.Spec
