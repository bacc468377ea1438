import Verif.Spec.Encoding

/-!
# Specification: two revisions of a type, at any depth

A `Rev` describes two types at once: the one a program wrote data with (`wr`) and the one another program reads it with (`rd`).
They may differ in any number of places, at any depth: fields and variants only one side knows, fields whose type changed so
that the data is kept (`Vec` to `List`, `u8` to `u32`, …) or is abandoned (from a varint to a payload or back), derived traits
and attributes. `see` is what the reader should make of a value of the writer, runtimes left blank.
-/

namespace Steit.Spec

mutual
/-- Two revisions of a type. -/
inductive Rev
  /-- unchanged -/
  | same (t : Ty)
  /-- an unsigned integer of another width -/
  | uint (w w' : Width)
  /-- a signed integer of another width -/
  | sint (w w' : Width)
  /-- a bool that became an unsigned integer -/
  | flag (w : Width)
  /-- anything length-prefixed that became `Bytes` -/
  | hide (t : Ty)
  | vec (r : Rev)
  | array (n : Nat) (r : Rev)
  | tuple (rs : RevTuple)
  | option (r : Rev)
  | box (r : Rev)
  | hashMap (k : Ty) (r : Rev)
  | list (r : Rev)
  | map (k k' : KeyTy) (r : Rev)
  /-- `Vec` to `List` -/
  | vecList (r : Rev)
  /-- `List` to `Vec` -/
  | listVec (r : Rev)
  /-- `Option` to `Vec` -/
  | optionVec (r : Rev)
  /-- `T` to `Box<T>` -/
  | boxed (r : Rev)
  /-- `Box<T>` to `T` -/
  | unboxed (r : Rev)
  /-- a derived struct: derived traits and size cache before and after, fields -/
  | struct (ds cached ds' cached' : Bool) (fs : RevFields)
  /-- a derived enum: derived traits and size cache before and after, fields of the default variant, other variants -/
  | enum (ds cached ds' cached' : Bool) (fs : RevFields) (vs : RevVariants)

/-- Two revisions of the components of a tuple. -/
inductive RevTuple
  | nil
  | cons (r : Rev) (rs : RevTuple)

/-- Two revisions of the fields of a message. -/
inductive RevFields
  | nil
  /-- both sides know the field -/
  | keep (tag : U32) (attrs attrs' : FieldAttrs) (r : Rev) (fs : RevFields)
  /-- only the writer knows the field -/
  | add (tag : U32) (attrs : FieldAttrs) (t : Ty) (fs : RevFields)
  /-- only the reader knows the field -/
  | drop (tag : U32) (attrs : FieldAttrs) (t : Ty) (fs : RevFields)
  /-- both sides know the field, but with types of different wire types -/
  | retype (tag : U32) (attrs attrs' : FieldAttrs) (t t' : Ty) (fs : RevFields)

/-- Two revisions of the variants of an enum. -/
inductive RevVariants
  | nil
  /-- both sides know the variant -/
  | keep (tag : U32) (cached cached' : Bool) (fs : RevFields) (vs : RevVariants)
  /-- only the writer knows the variant -/
  | add (tag : U32) (cached : Bool) (fs : Fields) (vs : RevVariants)
  /-- only the reader knows the variant -/
  | drop (tag : U32) (cached : Bool) (fs : Fields) (vs : RevVariants)
end

mutual
/-- The writer's type. -/
@[reducible] def Rev.wr : Rev → Ty
  | .same t => t
  | .uint w _ => .uint w
  | .sint w _ => .sint w
  | .flag _ => .bool
  | .hide t => t
  | .vec r => .vec r.wr
  | .array n r => .array n r.wr
  | .tuple rs => .tuple rs.wr
  | .option r => .option r.wr
  | .box r => .box r.wr
  | .hashMap k r => .hashMap k r.wr
  | .list r => .list r.wr
  | .map k _ r => .map k r.wr
  | .vecList r => .vec r.wr
  | .listVec r => .list r.wr
  | .optionVec r => .option r.wr
  | .boxed r => r.wr
  | .unboxed r => .box r.wr
  | .struct ds cached _ _ fs => .struct ds cached fs.wr
  | .enum ds cached _ _ fs vs => .enum ds cached fs.wr vs.wr

/-- The writer's components. -/
@[reducible] def RevTuple.wr : RevTuple → Tys
  | .nil => .nil
  | .cons r rs => .cons r.wr rs.wr

/-- The writer's fields. -/
@[reducible] def RevFields.wr : RevFields → Fields
  | .nil => .nil
  | .keep tag attrs _ r fs => .cons tag attrs r.wr fs.wr
  | .add tag attrs t fs => .cons tag attrs t fs.wr
  | .drop _ _ _ fs => fs.wr
  | .retype tag attrs _ t _ fs => .cons tag attrs t fs.wr

/-- The writer's variants. -/
@[reducible] def RevVariants.wr : RevVariants → Variants
  | .nil => .nil
  | .keep tag cached _ fs vs => .cons tag cached fs.wr vs.wr
  | .add tag cached fs vs => .cons tag cached fs vs.wr
  | .drop _ _ _ vs => vs.wr
end

mutual
/-- The reader's type. -/
@[reducible] def Rev.rd : Rev → Ty
  | .same t => t
  | .uint _ w' => .uint w'
  | .sint _ w' => .sint w'
  | .flag w => .uint w
  | .hide _ => .bytes
  | .vec r => .vec r.rd
  | .array n r => .array n r.rd
  | .tuple rs => .tuple rs.rd
  | .option r => .option r.rd
  | .box r => .box r.rd
  | .hashMap k r => .hashMap k r.rd
  | .list r => .list r.rd
  | .map _ k' r => .map k' r.rd
  | .vecList r => .list r.rd
  | .listVec r => .vec r.rd
  | .optionVec r => .vec r.rd
  | .boxed r => .box r.rd
  | .unboxed r => r.rd
  | .struct _ _ ds cached fs => .struct ds cached fs.rd
  | .enum _ _ ds cached fs vs => .enum ds cached fs.rd vs.rd

/-- The reader's components. -/
@[reducible] def RevTuple.rd : RevTuple → Tys
  | .nil => .nil
  | .cons r rs => .cons r.rd rs.rd

/-- The reader's fields. -/
@[reducible] def RevFields.rd : RevFields → Fields
  | .nil => .nil
  | .keep tag _ attrs r fs => .cons tag attrs r.rd fs.rd
  | .add _ _ _ fs => fs.rd
  | .drop tag attrs t fs => .cons tag attrs t fs.rd
  | .retype tag _ attrs _ t fs => .cons tag attrs t fs.rd

/-- The reader's variants. -/
@[reducible] def RevVariants.rd : RevVariants → Variants
  | .nil => .nil
  | .keep tag _ cached fs vs => .cons tag cached fs.rd vs.rd
  | .add _ _ _ vs => vs.rd
  | .drop tag cached fs vs => .cons tag cached fs vs.rd
end

/-- All field tags of either side. -/
def RevFields.tags : RevFields → List U32
  | .nil => []
  | .keep tag _ _ _ fs => tag :: fs.tags
  | .add tag _ _ fs => tag :: fs.tags
  | .drop tag _ _ fs => tag :: fs.tags
  | .retype tag _ _ _ _ fs => tag :: fs.tags

/-- Field tags only the writer knows. -/
def RevFields.extra : RevFields → List U32
  | .nil => []
  | .keep _ _ _ _ fs => fs.extra
  | .add tag _ _ fs => tag :: fs.extra
  | .drop _ _ _ fs => fs.extra
  | .retype _ _ _ _ _ fs => fs.extra

mutual
/-- The rules for changing a schema: integers do not get narrower, keys of maps neither, only what has a length becomes `Bytes`, and
no tag means one field to the writer and another one to the reader (`tags` of a message counts each field of either side once). -/
def Rev.Rules : Rev → Prop
  | .same _ => True
  | .uint w w' => w.bits ≤ w'.bits
  | .sint w w' => w.bits ≤ w'.bits
  | .flag _ => True
  | .hide t => wireOf t = 2
  | .vec r => r.Rules
  | .array _ r => r.Rules
  | .tuple rs => rs.Rules
  | .option r => r.Rules
  | .box r => r.Rules
  | .hashMap _ r => r.Rules
  | .list r => r.Rules
  | .map k k' r => k.max ≤ k'.max ∧ r.Rules
  | .vecList r => r.Rules
  | .listVec r => r.Rules
  | .optionVec r => r.Rules
  | .boxed r => r.Rules
  | .unboxed r => r.Rules
  | .struct _ _ _ _ fs => fs.tags.Nodup ∧ fs.Rules
  | .enum _ _ _ _ fs vs => fs.tags.Nodup ∧ fs.Rules ∧ vs.Rules

/-- Component-wise. -/
def RevTuple.Rules : RevTuple → Prop
  | .nil => True
  | .cons r rs => r.Rules ∧ rs.Rules

/-- Field-wise. -/
def RevFields.Rules : RevFields → Prop
  | .nil => True
  | .keep _ _ _ r fs => r.Rules ∧ fs.Rules
  | .add _ _ _ fs => fs.Rules
  | .drop _ _ _ fs => fs.Rules
  | .retype _ _ _ t t' fs => wireOf t ≠ wireOf t' ∧ fs.Rules

/-- Variant-wise. -/
def RevVariants.Rules : RevVariants → Prop
  | .nil => True
  | .keep _ _ _ fs vs => fs.tags.Nodup ∧ fs.Rules ∧ vs.Rules
  | .add _ _ _ vs => vs.Rules
  | .drop _ _ _ vs => vs.Rules
end

mutual
/-- What the reader makes of a value of the writer: fields only the writer knows are gone, fields only the reader knows (or knows
with another wire type) are at the defaults of their types, everything else is there. -/
def see : (r : Rev) → r.wr.El → r.rd.El
  | .same t, v => strip t v
  | .uint _ w', v => v.setWidth w'.bits
  | .sint _ w', v => v.signExtend w'.bits
  | .flag w, v => BitVec.ofNat w.bits v.toNat
  | .hide t, v => encode t v
  | .vec r, v => v.map (see r)
  | .array _ r, v => ⟨v.1.map (see r), by simp [v.2]⟩
  | .tuple rs, v => seeTuple rs v
  | .option r, v => v.map (see r)
  | .box r, v => see r v
  | .hashMap k r, v => v.map (fun e => (strip k e.1, see r e.2))
  | .list r, v => ⟨Rt.dflt, v.items.map (see r)⟩
  | .map _ _ r, v => ⟨Rt.dflt, v.entries.map (fun e => (e.1, see r e.2))⟩
  | .vecList r, v => ⟨Rt.dflt, v.map (see r)⟩
  | .listVec r, v => v.items.map (see r)
  | .optionVec r, v => v.toList.map (see r)
  | .boxed r, v => see r v
  | .unboxed r, v => see r v
  | .struct _ _ _ _ fs, v => ⟨Rt.dflt, seeFields fs v.fields⟩
  | .enum _ _ ds _ fs vs, v =>
    ⟨Rt.dflt, match v.val with
      | .inl x => .inl (seeFields fs x)
      | .inr x =>
        match seeVariant vs x with
        | some y => .inr y
        -- Rust refuses such data (`Seen` excludes it), a C# client shows the default variant
        | none => .inl (stripFields fs.rd ((fs.rd.dict ds).init none))⟩

/-- Component-wise. -/
def seeTuple : (rs : RevTuple) → rs.wr.El → rs.rd.El
  | .nil, v => v
  | .cons r rs, v => (see r v.1, seeTuple rs v.2)

/-- Field-wise. -/
def seeFields : (fs : RevFields) → fs.wr.El → fs.rd.El
  | .nil, v => v
  | .keep _ _ _ r fs, v => (see r v.1, seeFields fs v.2)
  | .add _ _ _ fs, v => seeFields fs v.2
  | .drop _ _ t fs, v => (strip t t.dict.dflt, seeFields fs v)
  | .retype _ _ _ _ t' fs, v => (strip t' t'.dict.dflt, seeFields fs v.2)

/-- In the current variant, `none` if the reader does not know it. -/
def seeVariant : (vs : RevVariants) → vs.wr.El → Option vs.rd.El
  | .nil, v => nomatch v
  | .keep _ _ _ fs vs, v =>
    match v with
    | .inl x => some (.inl (seeFields fs x))
    | .inr x => (seeVariant vs x).map .inr
  | .add _ _ _ vs, v =>
    match v with
    | .inl _ => none
    | .inr x => seeVariant vs x
  | .drop _ _ _ vs, v => (seeVariant vs v).map .inr
end

/-- A field the reader does not know is no obstacle: it is left out, it is read by a release build, it is a payload, or it is a
varint of at most two bytes (debug builds panic on longer ones, see `C14`). -/
def Skipped (m : Mode) (t : Ty) (v : t.El) : Prop :=
  leftOut t v (encode t v) = true ∨ m = .release ∨ wireOf t ≠ 0 ∨ (encode t v).length ≤ 2

mutual
/-- A value of the writer that the reader can read in build mode `m`: it uses no variant unknown to the reader, unknown fields
are no obstacle, and what is read is carried faithfully (see `Carried`; signed integers must be within half of the range of the
reader's type). -/
def Seen (m : Mode) : (r : Rev) → r.wr.El → Prop
  | .same t, v => Carried t v
  | .uint _ _, _ => True
  | .sint _ w', v => -(2 ^ (w'.bits - 2) : Int) ≤ v.toInt ∧ v.toInt < (2 ^ (w'.bits - 2) : Int)
  | .flag _, _ => True
  | .hide _, _ => True
  | .vec r, v => ∀ x ∈ v, Seen m r x
  | .array _ r, v => ∀ x ∈ v.1, Seen m r x
  | .tuple rs, v => SeenTuple m rs v
  | .option r, v => ∀ x ∈ v, Seen m r x
  | .box r, v => Seen m r v
  | .hashMap k r, v =>
    (∀ e ∈ v, Carried k e.1 ∧ Seen m r e.2) ∧ v.Pairwise (fun e e' => k.eq e.1 e'.1 = false)
  | .list r, v => ∀ x ∈ v.items, Seen m r x
  | .map k _ r, v =>
    (∀ e ∈ v.entries, e.1.toNat ≤ k.max ∧ e.1.toNat < 2 ^ 29 ∧ Seen m r e.2) ∧ (v.entries.map (·.1)).Nodup
  | .vecList r, v => ∀ x ∈ v, Seen m r x
  | .listVec r, v => ∀ x ∈ v.items, Seen m r x
  | .optionVec r, v => ∀ x ∈ v, Seen m r x
  | .boxed r, v => Seen m r v
  | .unboxed r, v => Seen m r v
  | .struct _ _ _ _ fs, v => SeenFields m fs v.fields
  | .enum _ _ _ _ fs vs, v =>
    match v.val with
    | .inl x => SeenFields m fs x
    | .inr x => SeenVariant m vs x

/-- Component-wise. -/
def SeenTuple (m : Mode) : (rs : RevTuple) → rs.wr.El → Prop
  | .nil, _ => True
  | .cons r rs, v => Seen m r v.1 ∧ SeenTuple m rs v.2

/-- Field-wise. -/
def SeenFields (m : Mode) : (fs : RevFields) → fs.wr.El → Prop
  | .nil, _ => True
  | .keep _ _ _ r fs, v => Seen m r v.1 ∧ SeenFields m fs v.2
  | .add _ _ t fs, v => Skipped m t v.1 ∧ SeenFields m fs v.2
  | .drop _ _ _ fs, v => SeenFields m fs v
  | .retype _ _ _ t _ fs, v => Skipped m t v.1 ∧ SeenFields m fs v.2

/-- In the current variant. -/
def SeenVariant (m : Mode) : (vs : RevVariants) → vs.wr.El → Prop
  | .nil, v => nomatch v
  | .keep _ _ _ fs vs, v =>
    match v with
    | .inl x => SeenFields m fs x
    | .inr x => SeenVariant m vs x
  | .add _ _ _ vs, v =>
    match v with
    | .inl _ => False
    | .inr x => SeenVariant m vs x
  | .drop _ _ _ vs, v => SeenVariant m vs v
end

end Steit.Spec
