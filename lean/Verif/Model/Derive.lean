import Verif.Model.Collections

/-!
# Derived implementations (`steit-derive/src/derive/struct.rs`, `enum.rs`, `field.rs`)

What the derive macros generate for a struct or an enum, as combinators over the dictionaries of the field types.
-/

namespace Steit

/-- The `#[steit(..)]` attributes of a field that change generated code, `steit-derive/src/derive/field.rs:14-26`; and
whether the field's type is written as a type parameter of the message, which makes a difference to the metadata only
(`field.rs:482-491`) and through it to the generated C# (`Verif/Model/CSharp.lean`). -/
structure FieldAttrs where
  noState : Bool := false
  noHash : Bool := false
  noEqHash : Bool := false
  param : Bool := false
  deriving DecidableEq, Repr

/-- Generated code for the fields of a struct or variant. The `Option Rt` passed to `init` is the `runtime` parameter of
the constructor, absent when `State` is not derived.
(`steit-derive/src/derive/field.rs:201-401`, `steit-derive/src/derive/struct.rs:186-442`.) -/
structure FieldsD (β : Type) where
  /-- `sizer`, `struct.rs:312-316`: field index and running total. -/
  sizes : Mode → Loc → Nat → Nat → β → Prog Nat
  /-- `serializer`, `struct.rs:318-322`. -/
  serialize : Mode → Loc → Nat → β → Prog Bytes
  /-- field initialisers of `ctor`, `struct.rs:186-216`. -/
  init : Option Rt → β
  /-- the arms of `merger`, `struct.rs:356-370`; `none` when no field has this number. -/
  mergeField : Mode → U32 → WireType → β → Bytes → Option (Res β)
  /-- the field part of `runtime_setter`, `struct.rs:386-403`. -/
  setRuntime : Rt → β → β
  /-- the arms of `replayer`, `struct.rs:405-442`; `none` when no field has this tag. -/
  handleField : Mode → U32 → β → List U32 → LogKind → Option U32 → Bytes → Option (Res β)

/-- No fields left. (`steit-derive/src/derive/field.rs:201-401`, `steit-derive/src/derive/struct.rs:186-442`.) -/
def fieldsNil : FieldsD Unit :=
  { sizes := fun _ _ _ size _ => pure size
    serialize := fun _ _ _ _ => pure []
    init := fun _ => ()
    mergeField := fun _ _ _ _ _ => none
    setRuntime := fun _ v => v
    handleField := fun _ _ _ _ _ _ _ => none }

/-- A field and the remaining ones: `init_default` `field.rs:238-245`, `sizer` `364-368`, `serializer` `370-374`,
`merger` `376-380`, `runtime_setter` `382-390`, `replayer` `392-401`. `isState` is `field.rs:234-236`. -/
def fieldsCons {α β : Type} (deriveState : Bool) (tag : U32) (attrs : FieldAttrs) (d : Dict α) (fs : FieldsD β) :
    FieldsD (α × β) :=
  let isState := deriveState && !attrs.noState
  { sizes := fun m l i size v => do
      let n ← (d.computeSizeNested m (l ++ [i]) v.1 (some tag) true).unwrap
      let size ← Prog.addU32 m size n
      fs.sizes m l (i + 1) size v.2
    serialize := fun m l i v => do
      let a ← d.serializeNested m (l ++ [i]) v.1 (some tag) true
      let b ← fs.serialize m l (i + 1) v.2
      pure (a ++ b)
    init := fun rt =>
      (match rt, isState with
        | some rt, true => d.withRuntime (rt.nested tag)
        | _, _ => d.dflt,
      fs.init rt)
    mergeField := fun m fieldNumber wireType v bs =>
      if fieldNumber = tag then some ((d.mergeNested m v.1 wireType bs).map (fun x => (x, v.2)))
      else (fs.mergeField m fieldNumber wireType v.2 bs).map (fun r => r.map (fun y => (v.1, y)))
    setRuntime := fun rt v =>
      (if isState then d.setRuntime (rt.nested tag) v.1 else v.1, fs.setRuntime rt v.2)
    handleField := fun m fieldNumber v path kind key bs =>
      if fieldNumber = tag then
        some (if isState then (d.handle m v.1 path kind key bs).map (fun x => (x, v.2)) else .ok v bs)
      else (fs.handleField m fieldNumber v.2 path kind key bs).map (fun r => r.map (fun y => (v.1, y))) }

namespace FieldsD
variable {β : Type}

/-- One round of `merger`, `struct.rs:362-367`. -/
def mergeStep (fs : FieldsD β) (m : Mode) (v : β) (bs : Bytes) : Res β :=
  match readTag m bs with
  | .error e => .err v e
  | .ok ((fieldNumber, wireType), rest) =>
    match fs.mergeField m fieldNumber wireType v rest with
    | some r => r
    | none =>
      match skipField m wireType rest with
      | .ok rest => .ok v rest
      | .error e => .err v e

/-- `merger`, `struct.rs:356-370`. -/
def merge (fs : FieldsD β) (m : Mode) (v : β) (bs : Bytes) : Res β :=
  untilEof (fs.mergeStep m) bs.length v bs

end FieldsD

/-- A struct: its runtime (a field added by the macro when `State` is derived; unused and `Rt.dflt` otherwise) and the
declared fields. The added size cache is not stored (see `Verif/Model/Prog.lean`). (`steit-derive/src/derive/struct.rs:67-82,598-618`.) -/
structure StructV (β : Type) where
  rt : Rt
  fields : β
  deriving DecidableEq

/-- `replayer` of a struct, `struct.rs:405-442` (with `handle_update` of `state.rs:32-35`). -/
def structHandle {β : Type} (fs : FieldsD β) (m : Mode) (v : StructV β) (path : List U32) (kind : LogKind)
    (key : Option U32) (bs : Bytes) : Res (StructV β) :=
  match path with
  | tag :: path =>
    match fs.handleField m tag v.fields path kind key bs with
    | some r => r.map (fun fields => { v with fields })
    | none => .err v .invalidData
  | [] =>
    match kind with
    | .update => (fs.merge m (fs.init (some v.rt)) bs).map (fun fields => { v with fields })
    | _ => .err v .invalidData

/-- A derived struct, `struct.rs:186-476`. `cached` is false for `#[steit(no_size_cache)]`. -/
def structDict {β : Type} (deriveState cached : Bool) (fs : FieldsD β) : Dict (StructV β) :=
  let ser : SerD (StructV β) :=
    { hasCache := fun _ => cached
      computeSize := fun m l v => fs.sizes m l 0 0 v.fields
      serializeCached := fun m l v => fs.serialize m l 0 v.fields }
  let merge := fun m (v : StructV β) bs => (fs.merge m v.fields bs).map (fun fields => { v with fields })
  if deriveState then
    { ser with
      wire := .sized
      isOmissible := ser.isOmissibleBySize
      dflt := ⟨Rt.dflt, fs.init (some Rt.dflt)⟩
      merge := merge
      withRuntime := fun rt => ⟨rt, fs.init (some rt)⟩
      runtime := fun v => some v.rt
      setRuntime := fun rt v => ⟨rt, fs.setRuntime rt v.fields⟩
      isRoot := isRootDefault (fun v => some v.rt)
      handleUpdate := handleUpdateDefault (fun v => some v.rt) (fun rt => ⟨rt, fs.init (some rt)⟩) merge
      handle := structHandle fs }
  else plainDict ser ser.isOmissibleBySize ⟨Rt.dflt, fs.init none⟩ merge

/-! ## Enums -/

/-- Generated code over the variants of an enum; `γ` is the sum of the variants' field products.
(`steit-derive/src/derive/enum.rs:92-453`.) -/
structure VariantsD (γ : Type) where
  /-- the tag of the current variant. -/
  tagOf : γ → U32
  /-- `size_caches`, `enum.rs:255-265`. -/
  hasCache : γ → Bool
  /-- the field part of `sizers`, `enum.rs:223-237`. -/
  sizes : Mode → Loc → Nat → γ → Prog Nat
  /-- the field part of `serializers`, `enum.rs:239-253`. -/
  serialize : Mode → Loc → γ → Prog Bytes
  /-- the constructor of the variant with the given tag, `struct.rs:186-216` (the `Rt` is the variant's own, line 203);
  `none` for unknown tags. -/
  ctor : U32 → Option Rt → Option γ
  /-- `merger` of the current variant's fields, `enum.rs:313-315`. -/
  mergeFields : Mode → γ → Bytes → Res γ
  /-- the field part of `runtime_setters`, `enum.rs:358-376`. -/
  setRuntime : Rt → γ → γ
  /-- `replayer` of the current variant's fields, `struct.rs:405-442` with `is_variant`. -/
  handleFields : Mode → γ → List U32 → LogKind → Option U32 → Bytes → Res γ

/-- No variants left. (`steit-derive/src/derive/enum.rs:92-453`.) -/
def variantsNil : VariantsD Empty :=
  { tagOf := nofun, hasCache := nofun, sizes := fun _ _ _ => nofun, serialize := fun _ _ => nofun
    ctor := fun _ _ => none
    mergeFields := fun _ => nofun, setRuntime := fun _ => nofun, handleFields := fun _ => nofun }

/-- `replayer` of a variant's fields, `struct.rs:410-441` with `is_variant`. -/
def variantHandle {β : Type} (fs : FieldsD β) (m : Mode) (v : β) (path : List U32) (kind : LogKind)
    (key : Option U32) (bs : Bytes) : Res β :=
  match path with
  | tag :: path =>
    match fs.handleField m tag v path kind key bs with
    | some r => r
    | none => .err v .invalidData
  | [] => .err v .invalidData

/-- A variant and the remaining ones. (`steit-derive/src/derive/enum.rs:92-453`.) -/
def variantsCons {β γ : Type} (tag : U32) (cached : Bool) (fs : FieldsD β) (vs : VariantsD γ) : VariantsD (β ⊕ γ) :=
  { tagOf := fun
      | .inl _ => tag
      | .inr v => vs.tagOf v
    hasCache := fun
      | .inl _ => cached
      | .inr v => vs.hasCache v
    sizes := fun m l size v =>
      match v with
      | .inl v => fs.sizes m l 0 size v
      | .inr v => vs.sizes m l size v
    serialize := fun m l v =>
      match v with
      | .inl v => fs.serialize m l 0 v
      | .inr v => vs.serialize m l v
    ctor := fun tag' rt => if tag' = tag then some (.inl (fs.init rt)) else (vs.ctor tag' rt).map .inr
    mergeFields := fun m v bs =>
      match v with
      | .inl v => (fs.merge m v bs).map .inl
      | .inr v => (vs.mergeFields m v bs).map .inr
    setRuntime := fun rt v =>
      match v with
      | .inl v => .inl (fs.setRuntime rt v)
      | .inr v => .inr (vs.setRuntime rt v)
    handleFields := fun m v path kind key bs =>
      match v with
      | .inl v => (variantHandle fs m v path kind key bs).map .inl
      | .inr v => (vs.handleFields m v path kind key bs).map .inr }

/-- An enum value: the runtime stored in the current variant (its path ends with the variant's tag; unused and `Rt.dflt`
if `State` is not derived) and the variant's fields. (`steit-derive/src/derive/enum.rs:41-77,344-453`.) -/
structure EnumV (γ : Type) where
  rt : Rt
  val : γ
  deriving DecidableEq

/-- `Deserialize::merge` of an enum, `enum.rs:288-342`. -/
def enumMerge {γ : Type} (deriveState : Bool) (vs : VariantsD γ) (m : Mode) (v : EnumV γ) (bs : Bytes) :
    Res (EnumV γ) :=
  match getVarint m 32 bs with
  | .error e => .err v e
  | .ok (tag, rest) =>
    if tag = vs.tagOf v.val then (vs.mergeFields m v.val rest).map (fun val => { v with val })
    else if deriveState then
      match v.rt.parent with
      | .error e => match vs.ctor tag none with
        | none => .err v .invalidData
        | some _ => .err v e
      | .ok parent =>
        match vs.ctor tag (some (parent.nested tag)) with
        | none => .err v .invalidData
        | some val => (vs.mergeFields m val rest).map (fun val => ⟨parent.nested tag, val⟩)
    else
      match vs.ctor tag none with
      | none => .err v .invalidData
      | some val => (vs.mergeFields m val rest).map (fun val => { v with val })

/-- `State::handle_update` of an enum, `enum.rs:419-422`; `dfltVal` builds the fields of the default variant (tag 0). -/
def enumHandleUpdate {γ : Type} (vs : VariantsD γ) (dfltVal : Option Rt → γ) (m : Mode) (v : EnumV γ) (bs : Bytes) :
    Res (EnumV γ) :=
  match v.rt.parent with
  | .error e => .err v e
  | .ok parent => enumMerge true vs m ⟨parent.nested 0#32, dfltVal (some (parent.nested 0#32))⟩ bs

/-- `State::handle` of an enum, `enum.rs:424-450`. A path naming another variant, known or not, is an error. -/
def enumHandle {γ : Type} (vs : VariantsD γ) (dfltVal : Option Rt → γ) (m : Mode) (v : EnumV γ) (path : List U32)
    (kind : LogKind) (key : Option U32) (bs : Bytes) : Res (EnumV γ) :=
  match path with
  | tag :: path =>
    if tag = vs.tagOf v.val then
      (vs.handleFields m v.val path kind key bs).map (fun val => { v with val })
    else .err v .invalidData
  | [] => if kind = .update then enumHandleUpdate vs dfltVal m v bs else .err v .invalidData

/-- A derived enum, `enum.rs:92-453`. `dfltVal` builds the fields of the default variant, the one with tag 0
(`enum.rs:101-106`). -/
def enumDict {γ : Type} (deriveState : Bool) (vs : VariantsD γ) (dfltVal : Option Rt → γ) : Dict (EnumV γ) :=
  let ser : SerD (EnumV γ) :=
    { hasCache := fun v => vs.hasCache v.val
      computeSize := fun m l v => do
        let size ← Prog.addU32 m 0 (u32Size (vs.tagOf v.val))
        vs.sizes m l size v.val
      serializeCached := fun m l v => do
        let payload ← vs.serialize m l v.val
        pure (putVarint (vs.tagOf v.val) ++ payload) }
  if deriveState then
    { ser with
      wire := .sized
      isOmissible := ser.isOmissibleBySize
      dflt := ⟨Rt.dflt.nested 0#32, dfltVal (some (Rt.dflt.nested 0#32))⟩
      merge := enumMerge true vs
      withRuntime := fun rt => ⟨rt.nested 0#32, dfltVal (some (rt.nested 0#32))⟩
      runtime := fun v => some v.rt
      setRuntime := fun rt v =>
        let rt := rt.nested (vs.tagOf v.val)
        ⟨rt, vs.setRuntime rt v.val⟩
      isRoot := fun v => do
        let parent ← v.rt.parent
        return parent.isRoot
      handleUpdate := enumHandleUpdate vs dfltVal
      handle := enumHandle vs dfltVal }
  else plainDict ser ser.isOmissibleBySize ⟨Rt.dflt, dfltVal none⟩ (enumMerge false vs)

end Steit
