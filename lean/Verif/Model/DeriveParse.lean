import Verif.Model.Ty

/-!
# What the derive macro accepts

The macro reads attributes and field lists, records errors in a context (`steit-derive/src/ctx.rs`), and in the end emits the
generated code and a compile error for each recorded error (`steit-derive/src/derive/derive.rs:203-216`). A declaration is
accepted if no error was recorded. Attribute names are strings; tokens and spans are left out.
-/

namespace Steit.Derive

/-- Literals in attributes, as far as the macro tells them apart (`syn::Lit`). (`steit-derive/src/attr.rs:46-105`.) -/
inductive Lit
  | int (n : Nat)
  | bool (b : Bool)
  | str (s : String)
  | other

/-- An attribute (`syn::Meta`). The items of a list are literals, or (`none`) something else. (`steit-derive/src/attr.rs:247-271`.) -/
inductive Meta
  | path (name : String)
  | nameValue (name : String) (lit : Lit)
  | list (name : String) (items : List (Option Lit))

/-- Its path. (`steit-derive/src/attr.rs:247-271`.) -/
def Meta.name : Meta → String
  | .path n => n
  | .nameValue n _ => n
  | .list n _ => n

/-- An item of `#[steit(…)]` (`syn::NestedMeta`). (`steit-derive/src/attr.rs:182-245`.) -/
inductive Nested
  | attr (m : Meta)
  | lit (l : Lit)

/-- A `#[steit…]` attribute: `#[steit(…)]`, or (`bad`) one of another form. Other attributes are not looked at.
(`steit-derive/src/attr.rs:182-245`.) -/
inductive RawAttr
  | steit (items : List Nested)
  | bad

/-- Recorded errors. (`steit-derive/src/ctx.rs:5-32`.) -/
inductive DErr
  | duplicateAttr (name : String)
  | badValue (name : String)
  | unknownAttr (name : String)
  | unexpectedLiteral
  | notAList
  | noTag
  | tagTooBig
  | reservedTag (tag : U32)
  | duplicateTag (tag : U32)
  | unsupportedType
  | zeroVariants
  | noDefaultVariant
  | unionNotSupported
  | constGenerics

/-- The ways an attribute can be parsed: `parse_path`; `parse_path` or `parse_bool`; `parse_int`; `parse_str`;
`parse_int_list` (`steit-derive/src/attr.rs:66-102,157-168`). -/
inductive Kind
  | pathOnly
  | flag
  | int
  | str
  | intList
  deriving DecidableEq

/-- Parsed values. (`steit-derive/src/attr.rs:46-105`.) -/
inductive Val
  | bool (b : Bool)
  | int (n : U32)
  | str (s : String)

/-- `base10_parse::<u32>`. (`steit-derive/src/attr.rs:46-105`.) -/
def parseU32 : Lit → Option U32
  | .int n => if n < 2 ^ 32 then some (BitVec.ofNat 32 n) else none
  | _ => none

/-- What an attribute amounts to. (`steit-derive/src/attr.rs:46-105`.) -/
inductive Parsed1
  | unknown
  | bad
  | set (v : Val)
  | reserve (tags : List U32) (bad : Nat)

/-- One attribute, of a given kind (`steit-derive/src/attr.rs:45-102,128-168`). -/
def Kind.parse : Kind → Meta → Parsed1
  | .pathOnly, .path _ => .set (.bool true)
  | .flag, .path _ => .set (.bool true)
  | .flag, .nameValue _ lit => match lit with
    | .bool b => .set (.bool b)
    | _ => .bad
  | .int, .nameValue _ lit => match parseU32 lit with
    | some n => .set (.int n)
    | none => .bad
  | .str, .nameValue _ lit => match lit with
    | .str s => .set (.str s)
    | _ => .bad
  | .intList, .list _ items =>
    .reserve (items.filterMap fun l => l.bind parseU32) (items.filter fun l => (l.bind parseU32).isNone).length
  | _, _ => .unknown

/-- The names looked for, with their kinds; the names are distinct.
(`steit-derive/src/attr.rs:8-65`, `steit-derive/src/derive/derive.rs:42-148`.) -/
abbrev Table := List (String × Kind)

/-- The kind of a name. (`steit-derive/src/attr.rs:8-65`, `steit-derive/src/derive/derive.rs:42-148`.) -/
def Table.kind? (table : Table) (name : String) : Option Kind := (table.find? fun e => e.1 == name).map (·.2)

/-- The outcome of parsing attributes. (`steit-derive/src/attr.rs:182-245`.) -/
structure ParsedAttrs where
  values : List (String × Val)
  reserved : List U32
  errors : List DErr
  unknown : List Nested

/-- `AttributeParse::parse` for a list of items, `steit-derive/src/attr.rs:182-214,247-271`, with `Attribute::set` (`:25-33`).
`seen` are the values found so far. -/
def parseAttrs (table : Table) (errorOnUnknown : Bool) : List Nested → List (String × Val) → ParsedAttrs
  | [], seen => ⟨seen, [], [], []⟩
  | .lit l :: items, seen =>
    let p := parseAttrs table errorOnUnknown items seen
    { p with errors := (if errorOnUnknown then [.unexpectedLiteral] else []) ++ p.errors, unknown := .lit l :: p.unknown }
  | .attr m :: items, seen =>
    let unknown :=
      let p := parseAttrs table errorOnUnknown items seen
      { p with errors := (if errorOnUnknown then [.unknownAttr m.name] else []) ++ p.errors, unknown := .attr m :: p.unknown }
    match table.kind? m.name with
    | none => unknown
    | some kind =>
      match kind.parse m with
      | .unknown => unknown
      | .bad =>
        let p := parseAttrs table errorOnUnknown items seen
        { p with errors := .badValue m.name :: p.errors }
      | .set v =>
        if m.name ∈ seen.map (·.1) then
          let p := parseAttrs table errorOnUnknown items seen
          { p with errors := .duplicateAttr m.name :: p.errors }
        else parseAttrs table errorOnUnknown items (seen ++ [(m.name, v)])
      | .reserve tags bad =>
        let p := parseAttrs table errorOnUnknown items seen
        { p with reserved := tags ++ p.reserved, errors := List.replicate bad (.badValue m.name) ++ p.errors }

/-- The items of all `#[steit(…)]` attributes. (`steit-derive/src/attr.rs:182-245`.) -/
def rawItems : List RawAttr → List Nested
  | [] => []
  | .steit items :: attrs => items ++ rawItems attrs
  | .bad :: attrs => rawItems attrs

/-- Errors for attributes that are not lists, `steit-derive/src/attr.rs:240-241`. -/
def rawErrors : List RawAttr → List DErr
  | [] => []
  | .steit _ :: attrs => rawErrors attrs
  | .bad :: attrs => .notAList :: rawErrors attrs

/-- `AttributeParse::parse` for `Vec<syn::Attribute>`, `steit-derive/src/attr.rs:215-248`. -/
def parseRaw (table : Table) (errorOnUnknown : Bool) (attrs : List RawAttr) : ParsedAttrs :=
  let p := parseAttrs table errorOnUnknown (rawItems attrs) []
  { p with errors := rawErrors attrs ++ p.errors }

/-- A boolean attribute, false by default. (`steit-derive/src/attr.rs:8-65`, `steit-derive/src/derive/derive.rs:42-148`.) -/
def ParsedAttrs.flag (p : ParsedAttrs) (name : String) : Bool :=
  match p.values.find? fun e => e.1 == name with
  | some (_, .bool b) => b
  | _ => false

/-- An integer attribute. (`steit-derive/src/attr.rs:8-65`, `steit-derive/src/derive/derive.rs:42-148`.) -/
def ParsedAttrs.int? (p : ParsedAttrs) (name : String) : Option U32 :=
  match p.values.find? fun e => e.1 == name with
  | some (_, .int n) => some n
  | _ => none

/-! ## Field types -/

mutual
/-- Rust types as syntax (`syn::Type`), as far as the macro distinguishes them: `(T)` and `&T`, `[T; N]`, paths with their type
arguments. (`steit-derive/src/derive/field.rs:427-538`.) -/
inductive SynTy
  | paren (t : SynTy)
  | array (t : SynTy)
  | path (qself : Bool) (args : SynArgs)
  | other

/-- The arguments of the last segment of a path: none, `<…>`, or `(…)`. (`steit-derive/src/derive/field.rs:427-538`.) -/
inductive SynArgs
  | none
  | angle (args : SynArgList)
  | parenthesized

/-- Arguments in `<…>`. (`steit-derive/src/derive/field.rs:427-538`.) -/
inductive SynArgList
  | nil
  | lifetime (rest : SynArgList)
  | type (t : SynTy) (rest : SynArgList)
  | other (rest : SynArgList)
end

mutual
/-- Whether `field_type_meta` succeeds, `steit-derive/src/derive/field.rs:400-508`. Each failure records an error. -/
def SynTy.supported : SynTy → Bool
  | .paren t => t.supported
  | .array t => t.supported
  | .path true _ => false
  | .path false args => args.supported
  | .other => false

/-- Arguments of a path. (`steit-derive/src/derive/field.rs:427-538`.) -/
def SynArgs.supported : SynArgs → Bool
  | .none => true
  | .angle args => args.supported
  | .parenthesized => false

/-- Arguments one by one. (`steit-derive/src/derive/field.rs:427-538`.) -/
def SynArgList.supported : SynArgList → Bool
  | .nil => true
  | .lifetime rest => rest.supported
  | .type t rest => t.supported && rest.supported
  | .other _ => false
end

/-! ## Declarations -/

/-- A field: its attributes, its type as written, the type this means, and whether what is written is a type parameter of the
message (`is_type_param`, `steit-derive/src/derive/field.rs:482-491`). -/
structure FieldDecl where
  attrs : List RawAttr
  syn : SynTy
  ty : Ty
  param : Bool := false

/-- A variant. (`steit-derive/src/derive/variant.rs:40-62`.) -/
structure VariantDecl where
  attrs : List RawAttr
  fields : List FieldDecl

/-- A declaration. (`steit-derive/src/derive/derive.rs:174-201`.) -/
inductive Data
  | struct (fields : List FieldDecl)
  | enum (variants : List VariantDecl)
  | union

/-- The input of the macro: `#[steit_derive(args)]`, other attributes, the declaration. (`steit-derive/src/lib.rs:14-18`.) -/
structure Input where
  args : List Nested
  attrs : List RawAttr
  constGenerics : Nat
  data : Data

/-- `DeriveSetting::parse`, arguments, `steit-derive/src/derive/derive.rs:47-73`. -/
def argTable : Table :=
  [("Serialize", .pathOnly), ("Deserialize", .pathOnly), ("State", .pathOnly), ("PartialEq", .pathOnly), ("Default", .pathOnly),
   ("Hash", .pathOnly)]

/-- `DeriveSetting::parse`, attributes, `steit-derive/src/derive/derive.rs:77-110`. -/
def settingTable : Table :=
  [("steit_owned", .flag), ("no_size_cache", .flag), ("derive_ctors", .flag), ("derive_setters", .flag), ("no_meta", .flag),
   ("ctor_prefix", .str), ("size_cache_renamed", .str), ("runtime_renamed", .str)]

/-- `StructAttrs::parse`, `steit-derive/src/derive/struct.rs:29-62`. -/
def structTable : Table :=
  [("reserved_tags", .intList), ("no_size_cache", .flag), ("size_cache_renamed", .str), ("runtime_renamed", .str),
   ("csharp_name", .str)]

/-- `EnumAttrs::parse`, `steit-derive/src/derive/enum.rs:24-39`. -/
def enumTable : Table := [("reserved_tags", .intList), ("csharp_name", .str)]

/-- `VariantAttrs::parse`, `steit-derive/src/derive/variant.rs:17-37`. -/
def variantTable : Table := [("tag", .int)]

/-- `FieldAttrs::parse`, `steit-derive/src/derive/field.rs:29-54`. -/
def fieldTable : Table :=
  [("tag", .int), ("no_hash", .flag), ("no_eq_hash", .flag), ("no_state", .flag), ("csharp_name", .str)]

/-- `DeriveSetting`, the parts that matter here. (`steit-derive/src/derive/derive.rs:15-39`.) -/
structure Setting where
  deriveState : Bool
  hasSizeCache : Bool
  deriveMeta : Bool

/-- `TAG_MAX`, `steit-derive/src/derive/tag.rs:2`. -/
def tagMax : U32 := 0x1fffffff#32

/-- A field that was parsed. (`steit-derive/src/derive/field.rs:186-224`.) -/
structure PField where
  tag : U32
  attrs : FieldAttrs
  ty : Ty

/-- `DeriveField::parse` with `FieldAttrs::parse` and `tag::validate`, `steit-derive/src/derive/field.rs:29-73,202-224`,
`tag.rs:4-10`. -/
def parseField (s : Setting) (f : FieldDecl) : List DErr × Option PField :=
  let p := parseRaw fieldTable true f.attrs
  match p.int? "tag" with
  | none => (p.errors ++ [.noTag], none)
  | some tag =>
    if tag > tagMax then (p.errors ++ [.tagTooBig], none)
    else if s.deriveMeta && !f.syn.supported then (p.errors ++ [.unsupportedType], none)
    else (p.errors, some ⟨tag, ⟨p.flag "no_state", p.flag "no_hash", p.flag "no_eq_hash", f.param⟩, f.ty⟩)

/-- The checks on a tag that was parsed, `steit-derive/src/derive/struct.rs:578-585`, `enum.rs:537-544`. -/
def tagErrors (reserved tags : List U32) (tag : U32) : List DErr :=
  (if tag ∈ reserved then [.reservedTag tag] else []) ++ (if tag ∈ tags then [.duplicateTag tag] else [])

/-- The loop of `parse_fields`, `steit-derive/src/derive/struct.rs:574-589`: errors, whether tags are unique, fields. -/
def parseFieldsLoop (s : Setting) (reserved : List U32) : List FieldDecl → List U32 → List DErr × Bool × List PField
  | [], _ => ([], true, [])
  | f :: fs, tags =>
    match parseField s f with
    | (errs, none) =>
      let (errs', unique, parsed) := parseFieldsLoop s reserved fs tags
      (errs ++ errs', unique, parsed)
    | (errs, some p) =>
      let (errs', unique, parsed) := parseFieldsLoop s reserved fs (p.tag :: tags)
      (errs ++ tagErrors reserved tags p.tag ++ errs', unique && decide (p.tag ∉ tags), p :: parsed)

/-- `parse_fields`, `steit-derive/src/derive/struct.rs:561-596`. The capacity of the vector is taken to be the number asked for. -/
def parseFields (s : Setting) (reserved : List U32) (fs : List FieldDecl) : List DErr × Option (List PField) :=
  let (errs, unique, parsed) := parseFieldsLoop s reserved fs []
  (errs, if parsed.length = fs.length ∧ unique = true then some parsed else none)

/-- A struct or variant that was parsed. (`steit-derive/src/derive/struct.rs:67-82`.) -/
structure PStruct where
  cached : Bool
  fields : List PField

/-- `Struct::parse`, `steit-derive/src/derive/struct.rs:84-144`. -/
def parseStruct (s : Setting) (p : ParsedAttrs) (fs : List FieldDecl) : List DErr × Option PStruct :=
  let (errs, fields) := parseFields s p.reserved fs
  (p.errors ++ errs, fields.map fun fields => ⟨s.hasSizeCache && !p.flag "no_size_cache", fields⟩)

/-- `Variant::parse` with `VariantAttrs::parse`, `steit-derive/src/derive/variant.rs:17-37,47-62`: the tag and the attributes left. -/
def parseVariant (v : VariantDecl) : List DErr × Option (U32 × List Nested) :=
  let p := parseRaw variantTable false v.attrs
  match p.int? "tag" with
  | none => (p.errors ++ [.noTag], none)
  | some tag => if tag > tagMax then (p.errors ++ [.tagTooBig], none) else (p.errors, some (tag, p.unknown))

/-- A variant that was parsed. (`steit-derive/src/derive/variant.rs:40-62`.) -/
structure PVariant where
  tag : U32
  struct : PStruct

/-- The loop of `parse_variants`, `steit-derive/src/derive/enum.rs:533-562`. The default variant is the first one parsed with
tag 0. -/
def parseVariantsLoop (s : Setting) (reserved : List U32) : List VariantDecl → List U32 → List DErr × Bool × List PVariant
  | [], _ => ([], true, [])
  | v :: vs, tags =>
    match parseVariant v with
    | (errs, none) =>
      let (errs', unique, parsed) := parseVariantsLoop s reserved vs tags
      (errs ++ errs', unique, parsed)
    | (errs, some (tag, attrs)) =>
      let (errs1, st) := parseStruct s (parseAttrs structTable true attrs []) v.fields
      let (errs', unique, parsed) := parseVariantsLoop s reserved vs (tag :: tags)
      (errs ++ tagErrors reserved tags tag ++ errs1 ++ errs', unique && decide (tag ∉ tags),
        (st.map fun st => PVariant.mk tag st).toList ++ parsed)

/-- `parse_variants`, `steit-derive/src/derive/enum.rs:516-575`. The capacity of the vector is taken to be the number asked for. -/
def parseVariants (s : Setting) (reserved : List U32) (vs : List VariantDecl) : List DErr × Option (List PVariant) :=
  let (errs, unique, parsed) := parseVariantsLoop s reserved vs []
  (errs ++ (if (parsed.find? fun v => v.tag == 0#32).isNone then [.noDefaultVariant] else []),
    if parsed.length = vs.length ∧ unique = true then some parsed else none)

/-- What was parsed. (`steit-derive/src/derive/derive.rs:174-201`.) -/
inductive Output
  | struct (st : PStruct)
  | enum (vs : List PVariant)

/-- `DeriveSetting::parse`, `steit-derive/src/derive/derive.rs:69-73,112-118`. -/
def settingOf (args attrs : ParsedAttrs) : Setting :=
  let deriveState := args.flag "State"
  let deriveSerialize := deriveState || args.flag "Serialize"
  let deriveDeserialize := deriveState || args.flag "Deserialize"
  ⟨deriveState, deriveSerialize && !attrs.flag "no_size_cache", deriveDeserialize && !attrs.flag "no_meta"⟩

/-- `derive`, `steit-derive/src/derive/derive.rs:167-216`: the recorded errors, and what code is generated for. -/
def derive (input : Input) : List DErr × Option Output :=
  let args := parseAttrs argTable false input.args []
  let attrs := parseRaw settingTable false input.attrs
  let s := settingOf args attrs
  let errs := args.errors ++ attrs.errors ++ List.replicate input.constGenerics .constGenerics
  match input.data with
  | .struct fs =>
    let (errs', st) := parseStruct s (parseAttrs structTable true attrs.unknown []) fs
    (errs ++ errs', st.map .struct)
  | .enum vs =>
    -- `Enum::parse`, `steit-derive/src/derive/enum.rs:51-76`
    if vs = [] then (errs ++ [.zeroVariants], none)
    else
      let p := parseAttrs enumTable true attrs.unknown []
      let (errs', vs) := parseVariants s p.reserved vs
      (errs ++ p.errors ++ errs', vs.map .enum)
  | .union => (errs ++ [.unionNotSupported], none)

/-! ## The type that is declared -/

/-- The fields. (`steit-derive/src/derive/struct.rs:561-596`.) -/
def fieldsOf : List PField → Fields
  | [] => .nil
  | f :: fs => .cons f.tag f.attrs f.ty (fieldsOf fs)

/-- The variants. (`steit-derive/src/derive/enum.rs:516-575`.) -/
def variantsOf : List PVariant → Variants
  | [] => .nil
  | v :: vs => .cons v.tag v.struct.cached (fieldsOf v.struct.fields) (variantsOf vs)

/-- The type as the rest of the model describes it: the default variant first. (`steit-derive/src/derive/derive.rs:174-201`.) -/
def Output.ty (deriveState : Bool) : Output → Ty
  | .struct st => .struct deriveState st.cached (fieldsOf st.fields)
  | .enum vs =>
    match vs.find? fun v => v.tag == 0#32 with
    | some v => .enum deriveState v.struct.cached (fieldsOf v.struct.fields) (variantsOf (vs.filter fun v => v.tag != 0#32))
    | none => .enum deriveState false .nil (variantsOf vs)

end Steit.Derive
