import Verif.Model.DeriveParse
import Verif.Model.Hash
import Verif.Model.Writer

/-!
# The code that is derived, with its names (`steit-derive/src/derive/struct.rs`, `enum.rs`, `field.rs`, `variant.rs`)

`Verif/Model/Derive.lean` says what derived methods do, with the fields of a message in reach by position. The macro writes text: fields are
reached by name, and in the arms of an enum the names of fields are variables next to those of the template (`quote!` gives all of them the
same hygiene). Here is that text, one constructor per template; names are looked up innermost first, as in Rust; `none` means that
the text does not compile. What a name stands for being known, statements do what they say to the field at that position.

Simplifications. Only names are checked, and types only so far as a variable of the template is not a field and a field is not a variable of the template.
(A field whose own type happens to have, say, a method `next` could stand in for `path`.) Names of types, traits and functions that
the text mentions are taken to mean the library's, and no field to be called like a constant in scope.
-/

namespace Steit.Derive

/-! ## Names and members -/

/-- An identifier; `raw` if it is written with `r#`. (`syn::Ident` in `steit-derive/src/derive/field.rs:76-93`.) -/
structure Ident where
  raw : Bool
  text : String
  deriving DecidableEq, Repr

/-- `Ident::to_string`. (`syn::Ident` in `steit-derive/src/derive/field.rs:76-93`.) -/
def Ident.shown (x : Ident) : String := if x.raw then "r#" ++ x.text else x.text

/-- The keywords of Rust (edition 2018), which cannot be names unless written raw.
(`syn::Ident` in `steit-derive/src/derive/field.rs:76-93`.) -/
def keywords : List String :=
  ["as", "break", "const", "continue", "crate", "else", "enum", "extern", "false", "fn", "for", "if", "impl", "in", "let", "loop",
    "match", "mod", "move", "mut", "pub", "ref", "return", "self", "Self", "static", "struct", "super", "trait", "true", "type", "unsafe",
    "use", "where", "while", "async", "await", "dyn", "abstract", "become", "box", "do", "final", "macro", "override", "priv", "typeof",
    "unsized", "virtual", "yield", "try"]

/-- How a member is written after a dot, in a pattern or in an initialiser. (`steit-derive/src/derive/field.rs:120-125`.) -/
inductive Access
  | name (x : Ident)
  | index (n : Nat)
  deriving DecidableEq, Repr

/-- Its tokens as a string. (`steit-derive/src/derive/field.rs:120-125`.) -/
def Access.shown : Access → String
  | .name x => x.shown
  | .index n => toString n

/-- The name of a member, in declarations. (`steit-derive/src/derive/field.rs:99-118`.) -/
inductive Key
  | name (s : String)
  | index (n : Nat)
  deriving DecidableEq

/-- What it names: `r#x` and `x` are the same identifier. (`steit-derive/src/derive/field.rs:120-125`.) -/
def Access.key : Access → Key
  | .name x => .name x.text
  | .index n => .index n

/-- `Field`, `field.rs:79-83`, without its type. -/
structure Member where
  name : Option Ident
  index : Nat

namespace Member

/-- `Field::access`, `field.rs:120-125`. -/
def access (f : Member) : Access :=
  match f.name with
  | some x => .name x
  | none => .index f.index

/-- `access: value` or the shorthand `value`. (`steit-derive/src/derive/field.rs:127-135`.) -/
inductive Init (α : Type)
  | pair (a : Access) (value : α)
  | short (value : α)

/-- `Field::init`, `field.rs:127-135`. -/
def init {α : Type} (f : Member) (value : α) (shown : String) : Init α :=
  if f.access.shown ≠ shown then .pair f.access value else .short value

/-- `Field::alias_prefixed`, `field.rs:137-147`. `format_ident!` leaves out the `r#` of its arguments. -/
def aliasPrefixed (f : Member) (pre : Option String) : String :=
  let alias := match f.name with
    | some x => x.text
    | none => "f" ++ toString f.index
  match pre with
  | some pre => pre ++ ("_" ++ alias)
  | none => alias

/-- `Field::destructure`, `field.rs:153-155`. -/
def destructure (f : Member) (name : String) : Init String := f.init name name

end Member

/-- An expression for a member. (`steit-derive/src/derive/field.rs:165-183`.) -/
inductive Expr
  | var (x : String)
  | dot (base : String) (a : Access)

/-- `Field::field_other`, `field.rs:165-179`; `Field::field`, `:182-184`, is without `other`. -/
def Member.fieldOther (f : Member) (other : Option String) (isVariant : Bool) : Expr :=
  if isVariant then .var (f.aliasPrefixed other) else .dot (other.getD "self") f.access

/-- A field that was parsed (`DeriveField`, `field.rs:186-191`). -/
structure DField where
  m : Member
  p : PField

/-- A struct or the inside of a variant (`Struct`, `struct.rs:65-74`): whether its fields are without names, the fields (names do not matter
if they have none), whether `State` is derived, and the names of the fields that are added: the size cache, if there is one, and the runtime, if `State`
is derived (`has_runtime`, `derive.rs:113`). -/
structure Item where
  tuple : Bool
  fields : List (Ident × PField)
  state : Bool
  cache : Option String
  runtime : String

namespace Item

/-- A member at a position. (`steit-derive/src/derive/field.rs:82-93`, `steit-derive/src/derive/struct.rs:561-596`.) -/
def member (it : Item) (name : Ident) (i : Nat) : Member := ⟨if it.tuple then none else some name, i⟩

/-- Fields with their positions, `struct.rs:574-575`. -/
def dfieldsFrom (it : Item) : Nat → List (Ident × PField) → List DField
  | _, [] => []
  | i, (x, p) :: fs => ⟨it.member x i, p⟩ :: it.dfieldsFrom (i + 1) fs

/-- The declared fields. (`steit-derive/src/derive/field.rs:82-93`, `steit-derive/src/derive/struct.rs:561-596`.) -/
def dfields (it : Item) : List DField := it.dfieldsFrom 0 it.fields

/-- The size cache, `struct.rs:95-111` with `add_field`, `:598-618`. -/
def cacheMember (it : Item) : Option Member := it.cache.map fun n => it.member ⟨false, n⟩ it.fields.length

/-- The runtime, `struct.rs:113-129` with `add_field`, `:598-618`. -/
def runtimeMember (it : Item) : Option Member :=
  if it.state then some (it.member ⟨false, it.runtime⟩ (it.fields.length + if it.cache.isSome then 1 else 0)) else none

/-- What was parsed of the fields. (`steit-derive/src/derive/field.rs:82-93`, `steit-derive/src/derive/struct.rs:561-596`.) -/
def parsed (it : Item) : List PField := it.fields.map Prod.snd

/-- The fields, as the rest of the model describes them.
(`steit-derive/src/derive/field.rs:82-93`, `steit-derive/src/derive/struct.rs:561-596`.) -/
def fs (it : Item) : Fields := fieldsOf it.parsed

end Item

/-- Which member. (`steit-derive/src/derive/struct.rs:67-82,598-618`.) -/
inductive Slot
  | data (i : Nat)
  | cache
  | rt
  deriving DecidableEq, Repr

namespace Item

/-- Members as declared after the macro has run. (`steit-derive/src/derive/struct.rs:67-82,598-618`.) -/
def members (it : Item) : List (Key × Slot) :=
  (it.dfields.map fun d => (d.m.access.key, Slot.data d.m.index)) ++ (it.cacheMember.map fun f => (f.access.key, Slot.cache)).toList ++
    (it.runtimeMember.map fun f => (f.access.key, Slot.rt)).toList

end Item

/-! ## Scopes -/

/-- What a variable stands for.
(Scope of the code made by `steit-derive/src/derive/struct.rs:175-184`, `steit-derive/src/derive/field.rs:153-163`.) -/
inductive Bind
  | self
  | other
  | mine (s : Slot)
  | others (s : Slot)
  | size
  | writer
  | hasher
  | reader
  | fieldNumber
  | wireType
  | tag
  | path
  | kind
  | key
  /-- the parameter `runtime`, nested below it. -/
  | runtime (under : List U32)
  deriving DecidableEq, Repr

/-- Variables in scope, innermost first.
(Scope of the code made by `steit-derive/src/derive/struct.rs:175-184`, `steit-derive/src/derive/field.rs:153-163`.) -/
abbrev Scope := List (String × Bind)

/-- The member that is called so. (`steit-derive/src/derive/struct.rs:67-82,598-618`.) -/
def slotOf (it : Item) (a : Access) : Option Slot := it.members.lookup a.key

/-- One entry of a pattern binds a variable.
(Scope of the code made by `steit-derive/src/derive/struct.rs:175-184`, `steit-derive/src/derive/field.rs:153-163`.) -/
def bindOne (it : Item) (who : Slot → Bind) : Member.Init String → Option (String × Bind)
  | .pair a x => if x ∈ keywords then none else (slotOf it a).map fun s => (x, who s)
  | .short x => if x ∈ keywords then none else (slotOf it (.name ⟨false, x⟩)).map fun s => (x, who s)

/-- A pattern `{ …, .. }`: members exist and are named once (`E0026`, `E0025`), variables are bound once (`E0416`).
(Scope of the code made by `steit-derive/src/derive/struct.rs:175-184`, `steit-derive/src/derive/field.rs:153-163`.) -/
def bindAll (it : Item) (who : Slot → Bind) (pat : List (Member.Init String)) : Option Scope :=
  match pat.mapM (bindOne it who) with
  | some bs => if (bs.map Prod.fst).Nodup ∧ (bs.map Prod.snd).Nodup then some bs else none
  | none => none

/-- `Struct::destructure`, `destructure_prefixed`, `struct.rs:175-184`. -/
def Item.destructure (it : Item) (pre : Option String) : List (Member.Init String) :=
  it.dfields.map fun d => d.m.destructure (d.m.aliasPrefixed pre)

/-- What an expression for a member stands for: whose, and which. (`steit-derive/src/derive/field.rs:165-183`.) -/
def resolve (it : Item) (Γ : Scope) : Expr → Option Bind
  | .var x => Γ.lookup x
  | .dot base a =>
    match Γ.lookup base with
    | some .self => (slotOf it a).map .mine
    | some .other => (slotOf it a).map .others
    | _ => none

/-- It stands for a declared field of `self`. (`steit-derive/src/derive/field.rs:165-183`.) -/
def resolveMine (it : Item) (Γ : Scope) (e : Expr) : Option Nat :=
  match resolve it Γ e with
  | some (.mine (.data i)) => some i
  | _ => none

/-- Something holds, or the text does not compile.
(What `rustc` asks of the code made by `steit-derive/src/derive/struct.rs:186-476`, `steit-derive/src/derive/enum.rs:92-453`.) -/
def need (p : Prop) [Decidable p] : Option Unit := if p then some () else none

/-! ## Templates -/

/-- Statements of `compute_size`. (`steit-derive/src/derive/field.rs:364-368`, `steit-derive/src/derive/struct.rs:312-316`.) -/
inductive SizeStmt
  /-- `size += tag.cache_size();`, `enum.rs:233`. -/
  | tag (size : String) (t : U32)
  /-- `size += field.compute_size_nested(tag, true).unwrap();`, `field.rs:364-368`. -/
  | field (size : String) (f : Expr) (t : U32)

/-- Statements of `serialize_cached`. (`steit-derive/src/derive/field.rs:370-374`, `steit-derive/src/derive/struct.rs:318-322`.) -/
inductive SerStmt
  /-- `tag.serialize_cached(writer)?;`, `enum.rs:249`. -/
  | tag (t : U32) (writer : String)
  /-- `field.serialize_nested(tag, true, writer)?;`, `field.rs:370-374`. -/
  | field (f : Expr) (t : U32) (writer : String)

/-- Statements of `hash`. (`steit-derive/src/derive/field.rs:355-362`, `steit-derive/src/derive/struct.rs:283-287`.) -/
inductive HashStmt
  /-- `tag.hash(state);`, `enum.rs:194`. -/
  | tag (t : U32) (state : String)
  /-- `field.hash(state);`, `field.rs:355-362`. -/
  | field (f : Expr) (state : String)

/-- `if field != other_field { return false; }`, `field.rs:340-353`. -/
structure EqStmt where
  f : Expr
  g : Expr

/-- `tag => field.merge_nested(wire_type, reader)?`, `field.rs:376-380`. -/
structure MergeArm where
  tag : U32
  f : Expr
  wireType : String
  reader : String

/-- Statements of `set_runtime`. (`steit-derive/src/derive/field.rs:382-390`, `steit-derive/src/derive/struct.rs:386-403`.) -/
inductive RtStmt
  /-- `let x = y.nested(tag);`, `enum.rs:372`. -/
  | letNested (x y : String) (t : U32)
  /-- `field.set_runtime(runtime.nested(tag));`, `field.rs:382-390`. -/
  | field (f : Expr) (runtime : String) (t : U32)
  /-- `self.runtime = runtime;` or `*self_runtime = runtime;`, `struct.rs:390-402`. -/
  | assign (f : Expr) (runtime : String)

/-- Arms of `handle`, `field.rs:392-401`. -/
inductive HandleArm
  /-- `tag => field.handle(path, kind, key, reader)`. -/
  | field (t : U32) (f : Expr) (path kind key reader : String)
  /-- `tag => Ok(())`. -/
  | skip (t : U32)

/-- Values of initialisers. (`steit-derive/src/derive/field.rs:238-245`, `steit-derive/src/derive/struct.rs:186-216`.) -/
inductive InitExpr
  /-- `State::with_runtime(runtime.nested(tag))`, `field.rs:240-241`. -/
  | withRuntime (runtime : String) (t : U32)
  /-- `Default::default()`, `field.rs:243`. -/
  | default
  /-- `SizeCache::new()`, `struct.rs:193`. -/
  | cacheNew
  /-- a variable, `struct.rs:197`. -/
  | var (x : String)

/-- Its tokens as a string. (Spaces do not matter: it is only compared with the access to a member.)
(`steit-derive/src/derive/field.rs:238-245`, `steit-derive/src/derive/struct.rs:186-216`.) -/
def InitExpr.shown : InitExpr → String
  | .withRuntime runtime t => "State :: with_runtime (" ++ runtime ++ " . nested (" ++ toString t.toNat ++ "u32))"
  | .default => "Default :: default ()"
  | .cacheNew => "SizeCache :: new ()"
  | .var x => x

namespace DField

/-- `DeriveField::is_state`, `field.rs:234-236`. -/
def isState (ds : Bool) (d : DField) : Bool := ds && !d.p.attrs.noState

/-- `DeriveField::sizer`, `field.rs:364-368`. -/
def sizer (isVariant : Bool) (d : DField) : SizeStmt := .field "size" (d.m.fieldOther none isVariant) d.p.tag

/-- `DeriveField::serializer`, `field.rs:370-374`. -/
def serializer (isVariant : Bool) (d : DField) : SerStmt := .field (d.m.fieldOther none isVariant) d.p.tag "writer"

/-- `DeriveField::hash`, `field.rs:355-362`. -/
def hash (isVariant : Bool) (d : DField) : Option HashStmt :=
  if !d.p.attrs.noHash && !d.p.attrs.noEqHash then some (.field (d.m.fieldOther none isVariant) "state") else none

/-- `DeriveField::eq`, `field.rs:340-353`. -/
def eq (isVariant : Bool) (d : DField) : Option EqStmt :=
  if !d.p.attrs.noEqHash then some ⟨d.m.fieldOther none isVariant, d.m.fieldOther (some "other") isVariant⟩ else none

/-- `DeriveField::merger`, `field.rs:376-380`. -/
def merger (isVariant : Bool) (d : DField) : MergeArm := ⟨d.p.tag, d.m.fieldOther none isVariant, "wire_type", "reader"⟩

/-- `DeriveField::runtime_setter`, `field.rs:382-390`. -/
def runtimeSetter (ds isVariant : Bool) (d : DField) : Option RtStmt :=
  if d.isState ds then some (.field (d.m.fieldOther none isVariant) "runtime" d.p.tag) else none

/-- `DeriveField::replayer`, `field.rs:392-401`. -/
def replayer (ds isVariant : Bool) (d : DField) : HandleArm :=
  if d.isState ds then .field d.p.tag (d.m.fieldOther none isVariant) "path" "kind" "key" "reader" else .skip d.p.tag

/-- `DeriveField::init_default`, `field.rs:238-245`. -/
def initDefault (ds : Bool) (d : DField) : Member.Init InitExpr :=
  let e : InitExpr := if d.isState ds then .withRuntime "runtime" d.p.tag else .default
  d.m.init e e.shown

end DField

/-! ## What statements do -/

end Steit.Derive

namespace Steit

/-- The field at a position. (A field that the code made by `steit-derive/src/derive/field.rs:340-401` is about.) -/
def Fields.at : (fs : Fields) → fs.El → Nat → Option ((t : Ty) × t.El)
  | .nil, _, _ => none
  | .cons _ _ t _, v, 0 => some ⟨t, v.1⟩
  | .cons _ _ _ fs, v, i + 1 => fs.at v.2 i

/-- Change the field at a position. (A field that the code made by `steit-derive/src/derive/field.rs:340-401` is about.) -/
def Fields.modify : (fs : Fields) → Nat → ((t : Ty) → t.El → t.El) → fs.El → fs.El
  | .nil, _, _, v => v
  | .cons _ _ t _, 0, f, v => (f t v.1, v.2)
  | .cons _ _ _ fs, i + 1, f, v => (v.1, fs.modify i f v.2)

/-- Run something on the field at a position; without such a field (which does not happen) there is an error.
(A field that the code made by `steit-derive/src/derive/field.rs:340-401` is about.) -/
def Fields.modifyRes : (fs : Fields) → Nat → ((t : Ty) → t.El → Res t.El) → fs.El → Res fs.El
  | .nil, _, _, v => .err v .diverge
  | .cons _ _ t _, 0, f, v => (f t v.1).map (fun x => (x, v.2))
  | .cons _ _ _ fs, i + 1, f, v => (fs.modifyRes i f v.2).map (fun y => (v.1, y))

/-- Fields made one by one, by position. (A field that the code made by `steit-derive/src/derive/field.rs:340-401` is about.) -/
def Fields.make : (fs : Fields) → Nat → (Nat → (t : Ty) → t.El) → fs.El
  | .nil, _, _ => ()
  | .cons _ _ t fs, i, f => (f i t, fs.make (i + 1) f)

/-- The variant a value is: its tag, its fields. (`match self` in `steit-derive/src/derive/enum.rs:129-453`.) -/
def Variants.case : (vs : Variants) → vs.El → U32 × ((fs : Fields) × fs.El)
  | .nil, v => nomatch v
  | .cons tag _ fs _, .inl v => (tag, ⟨fs, v⟩)
  | .cons _ _ _ vs, .inr v => vs.case v

/-- The fields of two values of the same variant. (`match self` in `steit-derive/src/derive/enum.rs:129-453`.) -/
def Variants.both : (vs : Variants) → vs.El → vs.El → Option ((fs : Fields) × (fs.El × fs.El))
  | .nil, v, _ => nomatch v
  | .cons _ _ fs _, .inl v, .inl w => some ⟨fs, v, w⟩
  | .cons _ _ _ vs, .inr v, .inr w => vs.both v w
  | .cons _ _ _ _, _, _ => none

/-- Change the fields of a value, the variant staying the same. (`match self` in `steit-derive/src/derive/enum.rs:129-453`.) -/
def Variants.modify : (vs : Variants) → (U32 → (fs : Fields) → fs.El → fs.El) → vs.El → vs.El
  | .nil, _, v => nomatch v
  | .cons tag _ fs _, f, .inl v => .inl (f tag fs v)
  | .cons _ _ _ vs, f, .inr v => .inr (vs.modify f v)

/-- Run something on the fields of a value. (`match self` in `steit-derive/src/derive/enum.rs:129-453`.) -/
def Variants.modifyRes : (vs : Variants) → (U32 → (fs : Fields) → fs.El → Res fs.El) → vs.El → Res vs.El
  | .nil, _, v => nomatch v
  | .cons tag _ fs _, f, .inl v => (f tag fs v).map .inl
  | .cons _ _ _ vs, f, .inr v => (vs.modifyRes f v).map .inr

/-- Make a value of the variant with a tag. (`match self` in `steit-derive/src/derive/enum.rs:129-453`.) -/
def Variants.make : (vs : Variants) → U32 → ((fs : Fields) → fs.El) → Option vs.El
  | .nil, _, _ => none
  | .cons tag _ fs vs, tag', f => if tag' = tag then some (.inl (f fs)) else (vs.make tag' f).map .inr

end Steit

namespace Steit.Derive

/-- What a statement of `compute_size` does. (`steit-derive/src/derive/field.rs:364-368`, `steit-derive/src/derive/struct.rs:312-316`.) -/
inductive SizeAct
  | tag (t : U32)
  | field (i : Nat) (t : U32)

/-- Look up the names of a statement of `compute_size`.
(`steit-derive/src/derive/field.rs:364-368`, `steit-derive/src/derive/struct.rs:312-316`.) -/
def SizeStmt.compile (it : Item) (Γ : Scope) : SizeStmt → Option SizeAct
  | .tag size t => do
    need (Γ.lookup size = some .size)
    some (.tag t)
  | .field size f t => do
    need (Γ.lookup size = some .size)
    let i ← resolveMine it Γ f
    some (.field i t)

/-- Run statements of `compute_size`. (`steit-derive/src/derive/field.rs:364-368`, `steit-derive/src/derive/struct.rs:312-316`.) -/
def runSizes (m : Mode) (l : Loc) (fs : Fields) (v : fs.El) : List SizeAct → Nat → Prog Nat
  | [], size => pure size
  | .tag t :: as, size => do
    let size ← Prog.addU32 m size (u32Size t)
    runSizes m l fs v as size
  | .field i t :: as, size =>
    match fs.at v i with
    | none => .fail .diverge
    | some ⟨ty, x⟩ => do
      let n ← (ty.dict.computeSizeNested m (l ++ [i]) x (some t) true).unwrap
      let size ← Prog.addU32 m size n
      runSizes m l fs v as size

/-- Look up the names of a statement of `serialize_cached`.
(`steit-derive/src/derive/field.rs:370-374`, `steit-derive/src/derive/struct.rs:318-322`.) -/
def SerStmt.compile (it : Item) (Γ : Scope) : SerStmt → Option SizeAct
  | .tag t writer => do
    need (Γ.lookup writer = some .writer)
    some (.tag t)
  | .field f t writer => do
    need (Γ.lookup writer = some .writer)
    let i ← resolveMine it Γ f
    some (.field i t)

/-- Run statements of `serialize_cached`. (`steit-derive/src/derive/field.rs:370-374`, `steit-derive/src/derive/struct.rs:318-322`.) -/
def runSer (m : Mode) (l : Loc) (fs : Fields) (v : fs.El) : List SizeAct → Prog Bytes
  | [] => pure []
  | .tag t :: as => do
    let b ← runSer m l fs v as
    pure (putVarint t ++ b)
  | .field i t :: as =>
    match fs.at v i with
    | none => .fail .diverge
    | some ⟨ty, x⟩ => do
      let a ← ty.dict.serializeNested m (l ++ [i]) x (some t) true
      let b ← runSer m l fs v as
      pure (a ++ b)

/-- What a statement of `hash` does. (`steit-derive/src/derive/field.rs:355-362`, `steit-derive/src/derive/struct.rs:283-287`.) -/
inductive HashAct
  | tag (t : U32)
  | field (i : Nat)

/-- Look up the names of a statement of `hash`.
(`steit-derive/src/derive/field.rs:355-362`, `steit-derive/src/derive/struct.rs:283-287`.) -/
def HashStmt.compile (it : Item) (Γ : Scope) : HashStmt → Option HashAct
  | .tag t state => do
    need (Γ.lookup state = some .hasher)
    some (.tag t)
  | .field f state => do
    need (Γ.lookup state = some .hasher)
    let i ← resolveMine it Γ f
    some (.field i)

/-- Run statements of `hash`. (`steit-derive/src/derive/field.rs:355-362`, `steit-derive/src/derive/struct.rs:283-287`.) -/
def runHash (fs : Fields) (v : fs.El) : List HashAct → List HashTok
  | [] => []
  | .tag t :: as => .num .w32 t :: runHash fs v as
  | .field i :: as =>
    (match fs.at v i with
    | none => []
    | some ⟨ty, x⟩ => ty.hash x) ++ runHash fs v as

/-- A field of `self` (`false`) or of `other` (`true`).
(`steit-derive/src/derive/field.rs:340-353`, `steit-derive/src/derive/struct.rs:240-248`.) -/
abbrev Side := Bool × Nat

/-- An expression stands for a field of one of the two.
(`steit-derive/src/derive/field.rs:340-353`, `steit-derive/src/derive/struct.rs:240-248`.) -/
def resolveSide (it : Item) (Γ : Scope) (e : Expr) : Option Side :=
  match resolve it Γ e with
  | some (.mine (.data i)) => some (false, i)
  | some (.others (.data i)) => some (true, i)
  | _ => none

/-- Look up the names of a comparison. (`steit-derive/src/derive/field.rs:340-353`, `steit-derive/src/derive/struct.rs:240-248`.) -/
def EqStmt.compile (it : Item) (Γ : Scope) (s : EqStmt) : Option (Side × Side) := do
  let a ← resolveSide it Γ s.f
  let b ← resolveSide it Γ s.g
  some (a, b)

/-- The two values that are compared. (`steit-derive/src/derive/field.rs:340-353`, `steit-derive/src/derive/struct.rs:240-248`.) -/
def side (fs : Fields) (v w : fs.El) (s : Side) : Option ((t : Ty) × t.El) := fs.at (if s.1 then w else v) s.2

open Classical in
/-- `!=` between two values. Between values of different types it does not compile; here the answer is arbitrary.
(`Vec == [T; n]` does compile, and is left out.)
(`steit-derive/src/derive/field.rs:340-353`, `steit-derive/src/derive/struct.rs:240-248`.) -/
noncomputable def sameValue : Option ((t : Ty) × t.El) → Option ((t : Ty) × t.El) → Bool
  | some ⟨t, x⟩, some ⟨t', y⟩ => if h : t' = t then t.eq x (h ▸ y) else false
  | _, _ => false

/-- Run the comparisons of `eq`. (`steit-derive/src/derive/field.rs:340-353`, `steit-derive/src/derive/struct.rs:240-248`.) -/
noncomputable def runEq (fs : Fields) (v w : fs.El) : List (Side × Side) → Bool
  | [] => true
  | (a, b) :: as => if !sameValue (side fs v w a) (side fs v w b) then false else runEq fs v w as

/-- The loop of `Struct::merger`, `struct.rs:356-370`: `while !reader.eof()? { let (field_number, wire_type) = reader.read_tag()?;
match field_number { arms, _ => reader.skip_field(wire_type)? } }`. Result: which field an arm is about. -/
def compileMerger (it : Item) (Γ : Scope) (arms : List MergeArm) : Option (List (U32 × Nat)) := do
  need (Γ.lookup "reader" = some .reader)
  let Γ : Scope := ("field_number", .fieldNumber) :: ("wire_type", .wireType) :: Γ
  need (Γ.lookup "field_number" = some .fieldNumber)
  need (Γ.lookup "reader" = some .reader)
  need (Γ.lookup "wire_type" = some .wireType)
  arms.mapM fun a => do
    let i ← resolveMine it Γ a.f
    need (Γ.lookup a.wireType = some .wireType)
    need (Γ.lookup a.reader = some .reader)
    some (a.tag, i)

/-- One round of the loop, `struct.rs:362-367`. -/
def runMergeStep (fs : Fields) (arms : List (U32 × Nat)) (m : Mode) (v : fs.El) (bs : Bytes) : Res fs.El :=
  match readTag m bs with
  | .error e => .err v e
  | .ok ((fieldNumber, wireType), rest) =>
    match arms.find? fun a => a.1 == fieldNumber with
    | some (_, i) => fs.modifyRes i (fun t x => t.dict.mergeNested m x wireType rest) v
    | none =>
      match skipField m wireType rest with
      | .ok rest => .ok v rest
      | .error e => .err v e

/-- The loop, `struct.rs:360-368`. -/
def runMerge (fs : Fields) (arms : List (U32 × Nat)) (m : Mode) (v : fs.El) (bs : Bytes) : Res fs.El :=
  untilEof (runMergeStep fs arms m) bs.length v bs

/-- What a statement of `set_runtime` does: give a field, or the object, the parameter nested so.
(`steit-derive/src/derive/field.rs:382-390`, `steit-derive/src/derive/struct.rs:386-403`.) -/
inductive RtAct
  | field (i : Nat) (under : List U32)
  | own (under : List U32)

/-- Look up the names of the statements of `set_runtime`.
(`steit-derive/src/derive/field.rs:382-390`, `steit-derive/src/derive/struct.rs:386-403`.) -/
def compileRt (it : Item) (Γ : Scope) : List RtStmt → Option (List RtAct)
  | [] => some []
  | .letNested x y t :: ss =>
    match Γ.lookup y with
    | some (.runtime under) => compileRt it ((x, .runtime (under ++ [t])) :: Γ) ss
    | _ => none
  | .field f runtime t :: ss =>
    match resolveMine it Γ f, Γ.lookup runtime with
    | some i, some (.runtime under) => (compileRt it Γ ss).map (.field i (under ++ [t]) :: ·)
    | _, _ => none
  | .assign f runtime :: ss =>
    match resolve it Γ f, Γ.lookup runtime with
    | some (.mine .rt), some (.runtime under) => (compileRt it Γ ss).map (.own under :: ·)
    | _, _ => none

/-- A runtime nested several times. (`steit-derive/src/derive/field.rs:382-390`, `steit-derive/src/derive/struct.rs:386-403`.) -/
def nestedUnder (rt : Rt) (under : List U32) : Rt := under.foldl Rt.nested rt

/-- Run the statements of `set_runtime` on an object.
(`steit-derive/src/derive/field.rs:382-390`, `steit-derive/src/derive/struct.rs:386-403`.) -/
def runRt (fs : Fields) (param : Rt) : List RtAct → StructV fs.El → StructV fs.El
  | [], v => v
  | .field i under :: as, v =>
    runRt fs param as ⟨v.rt, fs.modify i (fun t x => t.dict.setRuntime (nestedUnder param under) x) v.fields⟩
  | .own under :: as, v => runRt fs param as ⟨nestedUnder param under, v.fields⟩

/-- An arm of `handle`: which field it is about.
(`steit-derive/src/derive/field.rs:392-401`, `steit-derive/src/derive/struct.rs:405-442`.) -/
def HandleArm.compile (it : Item) (Γ : Scope) : HandleArm → Option (U32 × Option Nat)
  | .field t f path kind key reader => do
    let i ← resolveMine it Γ f
    need (Γ.lookup path = some .path)
    need (Γ.lookup kind = some .kind)
    need (Γ.lookup key = some .key)
    need (Γ.lookup reader = some .reader)
    some (t, some i)
  | .skip t => some (t, none)

/-- `Struct::replayer`, `struct.rs:405-442`: `if let Some(tag) = path.next() { match tag { arms, _ => Err(…, tag) } } else
{ match kind { LogEntryKind::Update => update, _ => Err(…, kind) } }`, where `update` is `self.handle_update(reader)` or an error. -/
def compileReplayer (it : Item) (isVariant : Bool) (Γ : Scope) (arms : List HandleArm) : Option (List (U32 × Option Nat)) := do
  need (Γ.lookup "path" = some .path)
  let arms ← arms.mapM (·.compile it (("tag", .tag) :: Γ))
  need ((("tag", Bind.tag) :: Γ).lookup "tag" = some .tag)
  need (Γ.lookup "kind" = some .kind)
  need (isVariant = true ∨ (Γ.lookup "self" = some .self ∧ Γ.lookup "reader" = some .reader))
  some arms

/-- The arms of `handle`, `struct.rs:423-430`. -/
def runHandle (fs : Fields) (arms : List (U32 × Option Nat)) (m : Mode) (v : fs.El) (tag : U32) (path : List U32) (kind : LogKind)
    (key : Option U32) (bs : Bytes) : Res fs.El :=
  match arms.find? fun a => a.1 == tag with
  | some (_, some i) => fs.modifyRes i (fun t x => t.dict.handle m x path kind key bs) v
  | some (_, none) => .ok v bs
  | none => .err v .invalidData

/-- What an initialiser gives. (`steit-derive/src/derive/field.rs:238-245`, `steit-derive/src/derive/struct.rs:186-216`.) -/
inductive InitAct
  | withRuntime (under : List U32)
  | default
  | cacheNew
  | runtime (under : List U32)
  deriving DecidableEq

/-- Look up the names of the value of an initialiser.
(`steit-derive/src/derive/field.rs:238-245`, `steit-derive/src/derive/struct.rs:186-216`.) -/
def InitExpr.compile (Γ : Scope) : InitExpr → Option InitAct
  | .withRuntime runtime t =>
    match Γ.lookup runtime with
    | some (.runtime under) => some (.withRuntime (under ++ [t]))
    | _ => none
  | .default => some .default
  | .cacheNew => some .cacheNew
  | .var x =>
    match Γ.lookup x with
    | some (.runtime under) => some (.runtime under)
    | _ => none

/-- An initialiser: which member, which value. The shorthand is for a variable of the name of the member.
(`steit-derive/src/derive/field.rs:238-245`, `steit-derive/src/derive/struct.rs:186-216`.) -/
def compileInit (it : Item) (Γ : Scope) : Member.Init InitExpr → Option (Slot × InitAct)
  | .pair a e => do
    let s ← slotOf it a
    let e ← e.compile Γ
    some (s, e)
  | .short (.var x) => do
    let s ← slotOf it (.name ⟨false, x⟩)
    let e ← (InitExpr.var x).compile Γ
    some (s, e)
  | .short _ => none

/-- What a member may be given. (`steit-derive/src/derive/field.rs:238-245`, `steit-derive/src/derive/struct.rs:186-216`.) -/
def InitAct.fits : Slot → InitAct → Bool
  | .data _, .withRuntime _ => true
  | .data _, .default => true
  | .cache, .cacheNew => true
  | .rt, .runtime _ => true
  | _, _ => false

/-- `Name { inits }`: every member exactly once (`E0062`, `E0063`).
(`steit-derive/src/derive/field.rs:238-245`, `steit-derive/src/derive/struct.rs:186-216`.) -/
def compileCtor (it : Item) (Γ : Scope) (inits : List (Member.Init InitExpr)) : Option (List (Slot × InitAct)) := do
  let as ← inits.mapM (compileInit it Γ)
  need ((as.map Prod.fst).Perm (it.members.map Prod.snd))
  need (∀ a ∈ as, a.2.fits a.1 = true)
  some as

/-- The value of a field. (`steit-derive/src/derive/field.rs:238-245`, `steit-derive/src/derive/struct.rs:186-216`.) -/
def InitAct.value (param : Rt) (t : Ty) : Option InitAct → t.El
  | some (.withRuntime under) => t.dict.withRuntime (nestedUnder param under)
  | _ => t.dict.dflt

/-- Run `Name { inits }`: the runtime. (`steit-derive/src/derive/field.rs:238-245`, `steit-derive/src/derive/struct.rs:186-216`.) -/
def ctorRt (as : List (Slot × InitAct)) (param : Rt) : Rt :=
  match as.lookup .rt with
  | some (.runtime under) => nestedUnder param under
  | _ => Rt.dflt

/-- Run `Name { inits }`: the fields. (`steit-derive/src/derive/field.rs:238-245`, `steit-derive/src/derive/struct.rs:186-216`.) -/
def ctorFields (fs : Fields) (as : List (Slot × InitAct)) (param : Rt) : fs.El :=
  fs.make 0 fun i t => InitAct.value param t (as.lookup (.data i))

/-- The initialisers of a constructor, `struct.rs:186-198`. -/
def Item.inits (it : Item) : List (Member.Init InitExpr) :=
  it.dfields.map (·.initDefault it.state) ++ (it.cacheMember.map fun f => f.init .cacheNew InitExpr.cacheNew.shown).toList ++
    (it.runtimeMember.map fun f => f.init (.var "runtime") "runtime").toList

/-- The statements of `set_runtime`, `struct.rs:386-403`. -/
def Item.runtimeSetter (it : Item) (isVariant : Bool) : List RtStmt :=
  it.dfields.filterMap (·.runtimeSetter it.state isVariant) ++
    (it.runtimeMember.map fun f => RtStmt.assign (if isVariant then .var "self_runtime" else .dot "self" f.access) "runtime").toList

/-- The names of the setters, `field.rs:247-253,286-330`; `pre` is `set` or `set_variant`. -/
def Item.setterNames (it : Item) (pre : String) : List String :=
  it.dfields.flatMap fun d =>
    let name := d.m.aliasPrefixed (some pre)
    name :: if d.isState it.state then [name ++ "_with"] else []

/-! ## Structs -/

/-- `self` alone. (Scope of the code made by `steit-derive/src/derive/struct.rs:175-184`, `steit-derive/src/derive/field.rs:153-163`.) -/
def selfScope : Scope := [("self", .self)]

/-- `size_cache` of a struct, `struct.rs:329-334`. -/
def structCache (it : Item) : Option Bool :=
  match it.cacheMember with
  | none => some false
  | some f => do
    need (resolve it selfScope (f.fieldOther none false) = some (.mine .cache))
    some true

/-- The parameters of `handle`, `struct.rs:465-471`, `enum.rs:424-430`. -/
def handleScope : Scope := ("path", .path) :: ("kind", .kind) :: ("key", .key) :: ("reader", .reader) :: selfScope

/-- The methods derived for a struct (`struct.rs:186-476`), `none` if some of them does not compile. `pre` is the name of the constructor,
`setters` says whether setters are derived. All of `Serialize`, `Deserialize` are, and `State` if `it.state` holds. -/
def structCode (pre : String) (setters : Bool) (it : Item) : Option (Dict (StructV it.fs.El)) := do
  -- members have different names (`E0124`), and so have methods (`E0592`)
  need (it.members.map Prod.fst).Nodup
  need (pre :: if setters then it.setterNames "set" else []).Nodup
  let sizes ← it.dfields.mapM fun d => (d.sizer false).compile it (("size", .size) :: selfScope)
  let sers ← it.dfields.mapM fun d => (d.serializer false).compile it (("writer", .writer) :: selfScope)
  let cached ← structCache it
  let mergers ← compileMerger it (("reader", .reader) :: selfScope) (it.dfields.map (·.merger false))
  let ctor ← compileCtor it (if it.state then [("runtime", .runtime [])] else []) it.inits
  let ser : SerD (StructV it.fs.El) :=
    { hasCache := fun _ => cached
      computeSize := fun m l v => runSizes m l it.fs v.fields sizes 0
      serializeCached := fun m l v => runSer m l it.fs v.fields sers }
  let merge := fun m (v : StructV it.fs.El) bs => (runMerge it.fs mergers m v.fields bs).map (fun fields => { v with fields })
  let new : Rt → StructV it.fs.El := fun rt => ⟨ctorRt ctor rt, ctorFields it.fs ctor rt⟩
  match it.runtimeMember with
  | some f => do
    -- `&self.runtime`, `struct.rs:446,458-460`
    need (resolve it selfScope (f.fieldOther none false) = some (.mine .rt))
    let rts ← compileRt it (("runtime", .runtime []) :: selfScope) (it.runtimeSetter false)
    let handlers ← compileReplayer it false handleScope (it.dfields.map (·.replayer it.state false))
    let handleUpdate := handleUpdateDefault (fun v => some v.rt) new merge
    some
      { ser with
        wire := .sized
        isOmissible := ser.isOmissibleBySize
        dflt := new Rt.dflt
        merge := merge
        withRuntime := new
        runtime := fun v => some v.rt
        setRuntime := fun rt v => runRt it.fs rt rts v
        isRoot := isRootDefault (fun v => some v.rt)
        handleUpdate := handleUpdate
        handle := fun m v path kind key bs =>
          match path with
          | tag :: path => (runHandle it.fs handlers m v.fields tag path kind key bs).map (fun fields => { v with fields })
          | [] =>
            match kind with
            | .update => handleUpdate m v bs
            | _ => .err v .invalidData }
  | none => some (plainDict ser ser.isOmissibleBySize (new Rt.dflt) merge)

/-- `eq` of a struct, `struct.rs:240-263`. -/
noncomputable def structEq (it : Item) : Option (StructV it.fs.El → StructV it.fs.El → Bool) := do
  need (it.members.map Prod.fst).Nodup
  let as ← (it.dfields.filterMap (·.eq false)).mapM (·.compile it (("other", .other) :: selfScope))
  some fun v w => runEq it.fs v.fields w.fields as

/-- `hash` of a struct, `struct.rs:283-302`. -/
def structHash (it : Item) : Option (StructV it.fs.El → List HashTok) := do
  need (it.members.map Prod.fst).Nodup
  let as ← (it.dfields.filterMap (·.hash false)).mapM (·.compile it (("state", .hasher) :: selfScope))
  some fun v => runHash it.fs v.fields as

/-! ## Enums -/

/-- A variant: its name, tag and inside. (`steit-derive/src/derive/variant.rs:40-88`.) -/
structure Var where
  name : String
  tag : U32
  item : Item

/-- `to_snake_case`, `steit-derive/src/str_util.rs:1-18`. -/
def snake (cm : Gen.CaseMap) (s : String) : String :=
  match s.toList with
  | [] => ""
  | c :: cs => String.ofList (cm.lower c ++ cs.flatMap fun c => (if cm.isUpper c then ['_'] else []) ++ cm.lower c)

/-- `Variant::ctor_name`, `variant.rs:85-87`. -/
def Var.ctorName (cm : Gen.CaseMap) (pre : String) (v : Var) : String := pre ++ ("_" ++ snake cm v.name)

/-- The names of methods: constructors, `enum.rs:110-118`, and setters, `enum.rs:121-126`. -/
def enumMethods (cm : Gen.CaseMap) (pre : String) (setters : Bool) (vars : List Var) : List String :=
  pre :: vars.map (·.ctorName cm pre) ++ if setters then vars.flatMap fun v => v.item.setterNames ("set_" ++ snake cm v.name) else []

/-- The variant a pattern `Name::Variant { … }` or a constructor is about. (`steit-derive/src/derive/variant.rs:40-88`.) -/
def varNamed (vars : List Var) (name : String) : Option Var := vars.find? fun v => v.name == name

/-- The name of the variant with a tag. (`steit-derive/src/derive/variant.rs:40-88`.) -/
def nameOf (vars : List Var) (tag : U32) : String := ((vars.find? fun v => v.tag == tag).map (·.name)).getD ""

/-- An arm `Name::Variant { pattern, .. } => body`: the body is looked at in the scope with the variables of the pattern.
(`match self` in `steit-derive/src/derive/enum.rs:129-453`.) -/
def armOf {β : Type} (vars : List Var) (Γ : Scope) (name : String) (pat : List (Member.Init String)) (body : Item → Scope → Option β) :
    Option (String × β) := do
  let v ← varNamed vars name
  let bs ← bindAll v.item .mine pat
  let b ← body v.item (bs ++ Γ)
  some (name, b)

/-- `sizers`, `enum.rs:223-237`. -/
def sizeArms (vars : List Var) : Option (List (String × List SizeAct)) :=
  vars.mapM fun v => armOf vars (("size", .size) :: selfScope) v.name (v.item.destructure none) fun it Γ =>
    (SizeStmt.tag "size" v.tag :: v.item.dfields.map (·.sizer true)).mapM (·.compile it Γ)

/-- `serializers`, `enum.rs:239-253`. -/
def serArms (vars : List Var) : Option (List (String × List SizeAct)) :=
  vars.mapM fun v => armOf vars (("writer", .writer) :: selfScope) v.name (v.item.destructure none) fun it Γ =>
    (SerStmt.tag v.tag "writer" :: v.item.dfields.map (·.serializer true)).mapM (·.compile it Γ)

/-- `size_caches`, `enum.rs:255-265`. -/
def cacheArms (vars : List Var) : Option (List (String × Bool)) :=
  vars.mapM fun v =>
    match v.item.cacheMember with
    | some f => armOf vars selfScope v.name [f.destructure "size_cache"] fun _ Γ => do
      need (Γ.lookup "size_cache" = some (.mine .cache))
      some true
    | none => armOf vars selfScope v.name [] fun _ _ => some false

/-- `hashers`, `enum.rs:184-198`. -/
def hashArms (vars : List Var) : Option (List (String × List HashAct)) :=
  vars.mapM fun v => armOf vars (("state", .hasher) :: selfScope) v.name (v.item.destructure none) fun it Γ =>
    (HashStmt.tag v.tag "state" :: v.item.dfields.filterMap (·.hash true)).mapM (·.compile it Γ)

/-- `eqs`, `enum.rs:132-149`: the second pattern is inside the arm of the first. -/
def eqArms (vars : List Var) : Option (List (String × List (Side × Side))) :=
  vars.mapM fun v => armOf vars (("other", .other) :: selfScope) v.name (v.item.destructure none) fun it Γ => do
    need (Γ.lookup "other" = some .other)
    let bs ← bindAll it .others (v.item.destructure (some "other"))
    (v.item.dfields.filterMap (·.eq true)).mapM (·.compile it (bs ++ Γ))

/-- `mergers`, `enum.rs:291-317`: the tag, the variant, the constructor that is called for another one (with `self.runtime().parent()` if
`State` is derived), what is done to fields. -/
def mergeArms (cm : Gen.CaseMap) (pre : String) (vars : List Var) : Option (List (U32 × String × String × List (U32 × Nat))) :=
  vars.mapM fun v => do
    let arm ← armOf vars (("tag", .tag) :: ("reader", .reader) :: selfScope) v.name (v.item.destructure none) fun it Γ =>
      compileMerger it Γ (v.item.dfields.map (·.merger true))
    some (v.tag, arm.1, v.ctorName cm pre, arm.2)

/-- `runtimes`, `enum.rs:348-356`. -/
def runtimeArms (vars : List Var) : Option (List (String × Unit)) :=
  vars.mapM fun v =>
    match v.item.runtimeMember with
    | some f => armOf vars selfScope v.name [f.destructure "runtime"] fun _ Γ => need (Γ.lookup "runtime" = some (.mine .rt))
    | none => none

/-- `runtime_setters`, `enum.rs:358-376`. -/
def rtArms (vars : List Var) : Option (List (String × List RtAct)) :=
  vars.mapM fun v =>
    match v.item.runtimeMember with
    | some f =>
      armOf vars (("runtime", .runtime []) :: selfScope) v.name (v.item.destructure none ++ [f.destructure "self_runtime"]) fun it Γ =>
        compileRt it Γ (.letNested "runtime" "runtime" v.tag :: v.item.runtimeSetter true)
    | none => none

/-- `replayers`, `enum.rs:378-394`. -/
def handleArms (vars : List Var) : Option (List (U32 × String × List (U32 × Option Nat))) :=
  vars.mapM fun v => do
    let arm ← armOf vars (("tag", .tag) :: handleScope) v.name (v.item.destructure none) fun it Γ =>
      compileReplayer it true Γ (v.item.dfields.map (·.replayer v.item.state true))
    some (v.tag, arm.1, arm.2)

/-- The constructors, `struct.rs:186-216`: name, variant, initialisers. -/
def ctors (cm : Gen.CaseMap) (pre : String) (vars : List Var) : Option (List (String × String × List (Slot × InitAct))) :=
  vars.mapM fun v => do
    let w ← varNamed vars v.name
    -- `let runtime = runtime.nested(tag);`
    let as ← compileCtor w.item (if v.item.state then [("runtime", .runtime [v.tag]), ("runtime", .runtime [])] else []) v.item.inits
    some (v.ctorName cm pre, v.name, as)

/-- Is a value the variant of this name? (`match self` in `steit-derive/src/derive/enum.rs:129-453`.) -/
def isVar (vars : List Var) (W : Variants) (v : W.El) (name : String) : Bool := nameOf vars (W.case v).1 == name

/-- Call a constructor by its name. (`steit-derive/src/derive/enum.rs:92-120`, `steit-derive/src/derive/struct.rs:168-173`.) -/
def callCtor (vars : List Var) (W : Variants) (cs : List (String × String × List (Slot × InitAct))) (ctor : String) (param : Rt) :
    Option (EnumV W.El) :=
  match cs.lookup ctor with
  | none => none
  | some (name, as) =>
    match varNamed vars name with
    | none => none
    | some v => (W.make v.tag fun fs => ctorFields fs as param).map fun val => ⟨ctorRt as param, val⟩

/-- `if let Name::Variant { … } = self { merger }`, `enum.rs:313-315`. -/
def runMergeArm (vars : List Var) (W : Variants) (name : String) (arms : List (U32 × Nat)) (m : Mode) (v : EnumV W.El) (bs : Bytes) :
    Res (EnumV W.El) :=
  if isVar vars W v.val name then
    (W.modifyRes (fun _ fs x => runMerge fs arms m x bs) v.val).map fun val => { v with val }
  else .ok v bs

/-- `merge` of an enum, `enum.rs:319-341`. Without `State` there is no runtime; what stands in its place is kept. -/
def runEnumMerge (vars : List Var) (W : Variants) (state : Bool) (cs : List (String × String × List (Slot × InitAct)))
    (arms : List (U32 × String × String × List (U32 × Nat))) (m : Mode) (v : EnumV W.El) (bs : Bytes) : Res (EnumV W.El) :=
  match getVarint m 32 bs with
  | .error e => .err v e
  | .ok (tag, rest) =>
    match arms.lookup tag with
    | none => .err v .invalidData
    | some (name, ctor, arm) =>
      if isVar vars W v.val name then runMergeArm vars W name arm m v rest
      else
        match (if state then v.rt.parent else .ok Rt.dflt) with
        | .error e => .err v e
        | .ok param =>
          match callCtor vars W cs ctor param with
          | none => .err v .diverge
          | some w => runMergeArm vars W name arm m (if state then w else { w with rt := v.rt }) rest

/-- `handle_update` of an enum, `enum.rs:419-422`. -/
def runEnumUpdate {W : Variants} (new : Rt → EnumV W.El) (merge : Mode → EnumV W.El → Bytes → Res (EnumV W.El)) (m : Mode) (v : EnumV W.El)
    (bs : Bytes) : Res (EnumV W.El) :=
  match v.rt.parent with
  | .error e => .err v e
  | .ok parent => merge m (new parent) bs

/-- The replayer of a variant, `struct.rs:405-442` with `is_variant`. -/
def runVarHandle (fs : Fields) (arms : List (U32 × Option Nat)) (m : Mode) (v : fs.El) (path : List U32) (kind : LogKind)
    (key : Option U32) (bs : Bytes) : Res fs.El :=
  match path with
  | tag :: path => runHandle fs arms m v tag path kind key bs
  | [] => .err v .invalidData

/-- `handle` of an enum, `enum.rs:424-450`. -/
def runEnumHandle (vars : List Var) (W : Variants) (arms : List (U32 × String × List (U32 × Option Nat)))
    (handleUpdate : Mode → EnumV W.El → Bytes → Res (EnumV W.El)) (m : Mode) (v : EnumV W.El) (path : List U32) (kind : LogKind)
    (key : Option U32) (bs : Bytes) : Res (EnumV W.El) :=
  match path with
  | tag :: path =>
    match arms.lookup tag with
    | none => .err v .invalidData
    | some (name, arm) =>
      if isVar vars W v.val name then
        (W.modifyRes (fun _ fs x => runVarHandle fs arm m x path kind key bs) v.val).map fun val => { v with val }
      else .err v .invalidData
  | [] =>
    match kind with
    | .update => handleUpdate m v bs
    | _ => .err v .invalidData

/-- `match self { arms }` on a value. (`match self` in `steit-derive/src/derive/enum.rs:129-453`.) -/
def matchSelf {β : Type} (vars : List Var) (W : Variants) (arms : List (String × β)) (v : W.El) : Option β :=
  arms.lookup (nameOf vars (W.case v).1)

/-- `compute_size` of an enum, `enum.rs:270-274`. -/
def runSizeArms (vars : List Var) (W : Variants) (arms : List (String × List SizeAct)) (m : Mode) (l : Loc) (v : EnumV W.El) : Prog Nat :=
  match matchSelf vars W arms v.val with
  | some as => runSizes m l (W.case v.val).2.1 (W.case v.val).2.2 as 0
  | none => .fail .diverge

/-- `serialize_cached` of an enum, `enum.rs:276-279`. -/
def runSerArms (vars : List Var) (W : Variants) (arms : List (String × List SizeAct)) (m : Mode) (l : Loc) (v : EnumV W.El) : Prog Bytes :=
  match matchSelf vars W arms v.val with
  | some as => runSer m l (W.case v.val).2.1 (W.case v.val).2.2 as
  | none => .fail .diverge

/-- `set_runtime` of an enum, `enum.rs:411-413`. -/
def runRtArms (vars : List Var) (W : Variants) (arms : List (String × List RtAct)) (rt : Rt) (v : EnumV W.El) : EnumV W.El :=
  match matchSelf vars W arms v.val with
  | some as => ⟨(runRt (W.case v.val).2.1 rt as ⟨v.rt, (W.case v.val).2.2⟩).rt, W.modify (fun _ fs x => (runRt fs rt as ⟨v.rt, x⟩).fields) v.val⟩
  | none => v

/-- Names of variants are different (`E0428`), so are those of members (`E0124`) and methods (`E0592`).
(`steit-derive/src/derive/enum.rs:516-575`.) -/
def enumNames (cm : Gen.CaseMap) (pre : String) (setters : Bool) (vars : List Var) : Option Unit := do
  need (vars.map (·.name)).Nodup
  need (∀ v ∈ vars, (v.item.members.map Prod.fst).Nodup)
  need (enumMethods cm pre setters vars).Nodup

/-- The methods derived for an enum (`enum.rs:92-453`), `none` if some of them does not compile. `W` lists the variants of its values, in any
order. `pre` is the name of the default constructor and begins those of others. -/
def enumCode (cm : Gen.CaseMap) (pre : String) (setters state : Bool) (vars : List Var) (W : Variants) : Option (Dict (EnumV W.El)) := do
  enumNames cm pre setters vars
  let sizes ← sizeArms vars
  let sers ← serArms vars
  let caches ← cacheArms vars
  let mergers ← mergeArms cm pre vars
  let cs ← ctors cm pre vars
  -- the default constructor, `enum.rs:101-106`; `unimplemented!` without a default variant, which is an error of the macro
  let dv ← vars.find? fun v => v.tag == 0#32
  let ser : SerD (EnumV W.El) :=
    { hasCache := fun v => (matchSelf vars W caches v.val).getD false
      computeSize := runSizeArms vars W sizes
      serializeCached := runSerArms vars W sers }
  let merge := runEnumMerge vars W state cs mergers
  let d0 ← callCtor vars W cs (dv.ctorName cm pre) Rt.dflt
  let new : Rt → EnumV W.El := fun rt => (callCtor vars W cs (dv.ctorName cm pre) rt).getD d0
  if state then do
    let _ ← runtimeArms vars
    let rts ← rtArms vars
    let handlers ← handleArms vars
    some
      { ser with
        wire := .sized
        isOmissible := ser.isOmissibleBySize
        dflt := new Rt.dflt
        merge := merge
        withRuntime := new
        runtime := fun v => some v.rt
        setRuntime := runRtArms vars W rts
        isRoot := fun v => do
          let parent ← v.rt.parent
          return parent.isRoot
        handleUpdate := runEnumUpdate new merge
        handle := runEnumHandle vars W handlers (runEnumUpdate new merge) }
  else some (plainDict ser ser.isOmissibleBySize (new Rt.dflt) merge)

/-- `hash` of an enum, `enum.rs:181-208`. -/
def enumHash (vars : List Var) (W : Variants) : Option (EnumV W.El → List HashTok) := do
  need (vars.map (·.name)).Nodup
  need (∀ v ∈ vars, (v.item.members.map Prod.fst).Nodup)
  let arms ← hashArms vars
  some fun v =>
    match matchSelf vars W arms v.val with
    | some as => runHash (W.case v.val).2.1 (W.case v.val).2.2 as
    | none => []

/-- `eq` of an enum, `enum.rs:129-159`. -/
noncomputable def enumEq (vars : List Var) (W : Variants) : Option (EnumV W.El → EnumV W.El → Bool) := do
  need (vars.map (·.name)).Nodup
  need (∀ v ∈ vars, (v.item.members.map Prod.fst).Nodup)
  let arms ← eqArms vars
  some fun v w =>
    match matchSelf vars W arms v.val with
    | some as =>
      if isVar vars W w.val (nameOf vars (W.case v.val).1) then
        match W.both v.val w.val with
        | some ⟨fs, x, y⟩ => runEq fs x y as
        | none => false
      else false
    | none => false

end Steit.Derive
