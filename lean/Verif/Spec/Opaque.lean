import Verif.Spec.Encoding

/-!
# Specification: programs that handle parts of a value as opaque bytes

A `Veil` describes two types at once: the one a value was written with (`src`) and the one of a program in between, which has
`Bytes` where it does not care what there is (`relay`), at any number of places and any depth. `seen` is what that program
should get: the encodings of the values hidden from it, everything else as it is, runtimes left blank.
-/

namespace Steit.Spec

mutual
/-- A type, and the same type with `Bytes` in some places. -/
inductive Veil
  /-- unchanged -/
  | same (t : Ty)
  /-- `Bytes` instead of `t` -/
  | hide (t : Ty)
  | vec (r : Veil)
  | array (n : Nat) (r : Veil)
  | tuple (rs : VeilTuple)
  | option (r : Veil)
  | box (r : Veil)
  | hashMap (k : Ty) (r : Veil)
  | list (r : Veil)
  | map (k : KeyTy) (r : Veil)
  /-- a derived struct: derived traits and size cache on both sides, fields -/
  | struct (ds cached ds' cached' : Bool) (fs : VeilFields)
  /-- a derived enum: derived traits and size cache on both sides, fields of the default variant, other variants -/
  | enum (ds cached ds' cached' : Bool) (fs : VeilFields) (vs : VeilVariants)

/-- The components of a tuple. -/
inductive VeilTuple
  | nil
  | cons (r : Veil) (rs : VeilTuple)

/-- The fields of a message. -/
inductive VeilFields
  | nil
  | cons (tag : U32) (attrs attrs' : FieldAttrs) (r : Veil) (fs : VeilFields)

/-- The variants of an enum. -/
inductive VeilVariants
  | nil
  | cons (tag : U32) (cached cached' : Bool) (fs : VeilFields) (vs : VeilVariants)
end

mutual
/-- The type of the value. -/
@[reducible] def Veil.src : Veil → Ty
  | .same t => t
  | .hide t => t
  | .vec r => .vec r.src
  | .array n r => .array n r.src
  | .tuple rs => .tuple rs.src
  | .option r => .option r.src
  | .box r => .box r.src
  | .hashMap k r => .hashMap k r.src
  | .list r => .list r.src
  | .map k r => .map k r.src
  | .struct ds cached _ _ fs => .struct ds cached fs.src
  | .enum ds cached _ _ fs vs => .enum ds cached fs.src vs.src

/-- Its components. -/
@[reducible] def VeilTuple.src : VeilTuple → Tys
  | .nil => .nil
  | .cons r rs => .cons r.src rs.src

/-- Its fields. -/
@[reducible] def VeilFields.src : VeilFields → Fields
  | .nil => .nil
  | .cons tag attrs _ r fs => .cons tag attrs r.src fs.src

/-- Its variants. -/
@[reducible] def VeilVariants.src : VeilVariants → Variants
  | .nil => .nil
  | .cons tag cached _ fs vs => .cons tag cached fs.src vs.src
end

mutual
/-- The type with `Bytes` in it. -/
@[reducible] def Veil.relay : Veil → Ty
  | .same t => t
  | .hide _ => .bytes
  | .vec r => .vec r.relay
  | .array n r => .array n r.relay
  | .tuple rs => .tuple rs.relay
  | .option r => .option r.relay
  | .box r => .box r.relay
  | .hashMap k r => .hashMap k r.relay
  | .list r => .list r.relay
  | .map k r => .map k r.relay
  | .struct _ _ ds cached fs => .struct ds cached fs.relay
  | .enum _ _ ds cached fs vs => .enum ds cached fs.relay vs.relay

/-- Its components. -/
@[reducible] def VeilTuple.relay : VeilTuple → Tys
  | .nil => .nil
  | .cons r rs => .cons r.relay rs.relay

/-- Its fields. -/
@[reducible] def VeilFields.relay : VeilFields → Fields
  | .nil => .nil
  | .cons tag _ attrs r fs => .cons tag attrs r.relay fs.relay

/-- Its variants. -/
@[reducible] def VeilVariants.relay : VeilVariants → Variants
  | .nil => .nil
  | .cons tag _ cached fs vs => .cons tag cached fs.relay vs.relay
end

mutual
/-- Only length-prefixed data is hidden: `Bytes` is not what integers and bools look like. -/
def Veil.Fair : Veil → Prop
  | .same _ => True
  | .hide t => wireOf t = 2
  | .vec r => r.Fair
  | .array _ r => r.Fair
  | .tuple rs => rs.Fair
  | .option r => r.Fair
  | .box r => r.Fair
  | .hashMap _ r => r.Fair
  | .list r => r.Fair
  | .map _ r => r.Fair
  | .struct _ _ _ _ fs => fs.Fair
  | .enum _ _ _ _ fs vs => fs.Fair ∧ vs.Fair

/-- In all components. -/
def VeilTuple.Fair : VeilTuple → Prop
  | .nil => True
  | .cons r rs => r.Fair ∧ rs.Fair

/-- In all fields. -/
def VeilFields.Fair : VeilFields → Prop
  | .nil => True
  | .cons _ _ _ r fs => r.Fair ∧ fs.Fair

/-- In all variants. -/
def VeilVariants.Fair : VeilVariants → Prop
  | .nil => True
  | .cons _ _ _ fs vs => fs.Fair ∧ vs.Fair
end

mutual
/-- What the program in between should see of a value. -/
def Veil.seen : (r : Veil) → r.src.El → r.relay.El
  | .same _, v => v
  | .hide t, v => encode t v
  | .vec r, v => List.map r.seen v
  | .array _ r, v => ⟨v.1.map r.seen, by simp [v.2]⟩
  | .tuple rs, v => rs.seen v
  | .option r, v => Option.map r.seen v
  | .box r, v => r.seen v
  | .hashMap _ r, v => List.map (fun e => (e.1, r.seen e.2)) v
  | .list r, v => ⟨Rt.dflt, v.items.map r.seen⟩
  | .map _ r, v => ⟨Rt.dflt, v.entries.map (fun e => (e.1, r.seen e.2))⟩
  | .struct _ _ _ _ fs, v => ⟨Rt.dflt, fs.seen v.fields⟩
  | .enum _ _ _ _ fs vs, v =>
    ⟨Rt.dflt, match v.val with
      | .inl x => .inl (fs.seen x)
      | .inr x => .inr (vs.seen x)⟩

/-- Component-wise. -/
def VeilTuple.seen : (rs : VeilTuple) → rs.src.El → rs.relay.El
  | .nil, v => v
  | .cons r rs, v => (r.seen v.1, rs.seen v.2)

/-- Field-wise. -/
def VeilFields.seen : (fs : VeilFields) → fs.src.El → fs.relay.El
  | .nil, v => v
  | .cons _ _ _ r fs, v => (r.seen v.1, fs.seen v.2)

/-- In the current variant. -/
def VeilVariants.seen : (vs : VeilVariants) → vs.src.El → vs.relay.El
  | .nil, v => v
  | .cons _ _ _ fs vs, v =>
    match v with
    | .inl x => .inl (fs.seen x)
    | .inr x => .inr (vs.seen x)
end

end Steit.Spec
