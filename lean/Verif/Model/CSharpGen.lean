import Verif.Model.Collect
import Verif.Model.Writer

/-!
# The C# code generator

`steit/src/gen/generators/csharp.rs`, call for call. `none` stands for a panic (`expect`).
-/

namespace Steit.Gen

/-- `CSharpSetting`, `steit/src/gen/generators/csharp.rs:7-10`. -/
structure CSharpSetting where
  namespace' : Text
  usedNamespaces : List Text

/-- A number written in decimal. (Tags put in format strings, `steit/src/gen/generators/csharp.rs:70-372`.) -/
def decimal (n : U32) : Text := Nat.toDigits 10 n.toNat

/-- `join(", ")`. (`steit/src/gen/generators/csharp.rs:616-622,624-657`.) -/
def joinComma : List Text → Text
  | [] => []
  | [t] => t
  | t :: ts => t ++ (lit! ", ") ++ joinComma ts

/-- `type_params`, `steit/src/gen/generators/csharp.rs:616-622`. -/
def typeParams (ps : List String) : Text :=
  if ps.isEmpty then [] else fmt (fmt! "<{}>" joinComma (ps.map String.toList))

mutual
/-- `field_type`, `steit/src/gen/generators/csharp.rs:624-657`. -/
def fieldType : FieldTypeMeta → Option Text
  | .type t => typeName t
  | .typeParam p => some p.toList

/-- The inner match of `field_type`, lines 626-653. (`steit/src/gen/generators/csharp.rs:626-653`.) -/
def typeName : TypeMeta → Option Text
  | .primitive name _ => name.csharp.map String.toList
  | .ref name args =>
    let name := name.csharpName
    match args with
    | .nil => some name.toList
    | .cons a as =>
      match fieldType a, fieldTypes as with
      | some a, some as =>
        if name = "Box" then some a
        else
          let args := if name = "StateMap" then as else a :: as
          some (fmt (fmt! "{}<{}>" name.toList, joinComma args))
      | _, _ => none

/-- `type_args.iter().map(field_type).collect()`. (`steit/src/gen/generators/csharp.rs:616-622,624-657`.) -/
def fieldTypes : TypeArgs → Option (List Text)
  | .nil => some []
  | .cons a as =>
    match fieldType a, fieldTypes as with
    | some a, some as => some (a :: as)
    | _, _ => none
end

/-- `CSharpField`, `steit/src/gen/generators/csharp.rs:579-584`. -/
structure CSharpField where
  data : FieldMeta
  name : Text
  typeName : Text

/-- `CSharpField::from_meta`, `steit/src/gen/generators/csharp.rs:586-596`. -/
def CSharpField.fromMeta (cm : CaseMap) (f : FieldMeta) : Option CSharpField :=
  (fieldType f.ty).map fun t => ⟨f, toCamelCase cm f.name.csharpName.toList true, t⟩

/-- `map(CSharpField::from_meta).collect()`. (`steit/src/gen/generators/csharp.rs:70-90,586-596`.) -/
def CSharpField.fromMetas (cm : CaseMap) : List FieldMeta → Option (List CSharpField)
  | [] => some []
  | f :: fs =>
    match CSharpField.fromMeta cm f, fromMetas cm fs with
    | some f, some fs => some (f :: fs)
    | _, _ => none

/-- A loop of writer calls. (`steit/src/gen/generators/csharp.rs:36-58,70-576`.) -/
def each {α : Type} (xs : List α) (f : Writer → α → Writer) (w : Writer) : Writer := xs.foldl f w

/-- `used_namespaces.sort()`: insertion into a sorted list. Strings of Rust are ordered by their bytes, which is the order of their
characters. (`steit/src/gen/generators/csharp.rs:36-58`.) -/
def insertSorted (t : Text) : List Text → List Text
  | [] => [t]
  | u :: us => if t ≤ u then t :: u :: us else u :: insertSorted t us

/-- See `insertSorted`. (`steit/src/gen/generators/csharp.rs:36-58`.) -/
def sortTexts : List Text → List Text
  | [] => []
  | t :: ts => insertSorted t (sortTexts ts)

/-- `gen_file_opening`, `steit/src/gen/generators/csharp.rs:36-58`. -/
def genFileOpening (setting : CSharpSetting) (w : Writer) : Writer :=
  let w := w.writeln (lit! "using System;") |>.newline
  let used := sortTexts ([lit! "Steit.Builtins", lit! "Steit.Codec", lit! "Steit.Collections", lit! "Steit.State",
    lit! "Steit.State.Event"] ++ setting.usedNamespaces)
  let w := each used (fun w ns => w.writeln (fmt (fmt! "using {};" ns))) w
  w.newline.writeln (fmt (fmt! "namespace {} {{" setting.namespace')) |>.indent

/-- `gen_file_closing`, `steit/src/gen/generators/csharp.rs:60-62`. -/
def genFileClosing (w : Writer) : Writer := w.outdentWriteln (lit! "}")

/-- The statement of the constructor that sets a field, `steit/src/gen/generators/csharp.rs:141-159`. -/
def fieldInit (f : CSharpField) : Option Text :=
  match f.data.ty with
  | .type (.primitive _ _) => none
  | .type (.ref _ _) => some (fmt (fmt! "new {}(this.Path.GetNested({}))" f.typeName, decimal f.data.tag))
  | .typeParam p =>
    some (fmt (fmt! "StateFactory.Construct<{}>(this.Path.GetNested({}))" p.toList, decimal f.data.tag))

/-- `Clear…UpdateHandlers` of a field, `steit/src/gen/generators/csharp.rs:175-200`; `many` is `fields.len() > 1`. -/
def genClearField (many : Bool) (w : Writer) (f : CSharpField) : Writer :=
  let w := w.writeIndentation.write (fmt (fmt! "public static void Clear{}UpdateHandlers() {{" f.name))
  let w := if many then w.write (lit! " ") else w.newline.indent.writeIndentation
  let w := w.write (fmt (fmt! "On{}Update = null;" f.name))
  let w := if many then w.write (lit! " ") else w.newline.outdent.writeIndentation
  w.write (lit! "}") |>.newline

/-- `ClearUpdateHandlers`, `steit/src/gen/generators/csharp.rs:203-228`. -/
def genClearAll (fields : List CSharpField) (w : Writer) : Writer :=
  let w := w.writeIndentation.write (lit! "public static void ClearUpdateHandlers() {")
  let w := if !fields.isEmpty then w.indent else w.write (lit! " ")
  let w := each fields (fun w f =>
    let w := if !fields.isEmpty then w.newline.writeIndentation else w
    w.write (fmt (fmt! "On{}Update = null;" f.name))) w
  let w := if !fields.isEmpty then w.outdent.newline.writeIndentation else w
  w.write (lit! "}") |>.newline

/-- The wire type of a field in the generated code, `steit/src/gen/generators/csharp.rs:248-261`. -/
def fieldWireType (f : FieldMeta) : Text :=
  match f.ty with
  | .type (.primitive _ .varint) => lit! "WireType.Varint"
  | .type (.primitive _ .sized) => lit! "WireType.Sized"
  | .type (.ref _ _) => lit! "WireType.Sized"
  | .typeParam p => fmt (fmt! "StateFactory.IsStateType(typeof({})) ? WireType.Sized : WireType.Varint" p.toList)

/-- The nested state of a field, `steit/src/gen/generators/csharp.rs:277-285`. -/
def fieldNested (f : CSharpField) : Option Text :=
  match f.data.ty with
  | .type (.primitive _ _) => none
  | .type (.ref _ _) => some (fmt (fmt! "this.{}" f.name))
  | .typeParam _ => some (fmt (fmt! "this.{} as IState" f.name))

/-- The case of `ReplaceAt` for a field, `steit/src/gen/generators/csharp.rs:303-330`. -/
def fieldReplace (f : CSharpField) : Text :=
  match f.data.ty with
  | .type (.primitive _ _) =>
    fmt (fmt! "case {0}: this.{1} = this.MaybeNotify({0}, reader.Read{2}(), this.{1}, On{1}Update, shouldNotify); break;"
      decimal f.data.tag, f.name, f.typeName)
  | .type (.ref _ _) =>
    fmt (fmt! "case {0}: this.{1} = this.MaybeNotify({0}, {2}.Deserialize(reader, this.Path.GetNested({0})), this.{1}, On{1}Update, shouldNotify); break;"
      decimal f.data.tag, f.name, f.typeName)
  | .typeParam _ =>
    fmt (fmt! "case {0}: this.{1} = this.MaybeNotify({0}, StateFactory.Deserialize<{2}>(reader, this.Path, {0}), this.{1}, On{1}Update, shouldNotify); break;"
      decimal f.data.tag, f.name, f.typeName)

/-- `writer.writeln` if there is something to write. (`steit/src/gen/generators/csharp.rs:70-372`, `steit/src/gen/writer.rs:47-49`.) -/
def writelnSome (prefix' : List Frag) (t : Option Text) (suffix : List Frag) (w : Writer) : Writer :=
  match t with
  | none => w
  | some t => w.writeln (fmt (prefix' ++ [.arg t] ++ suffix))

/-- The class of a struct or a variant: `gen_struct` without the file around it, `steit/src/gen/generators/csharp.rs:93-367`. -/
def genClass (cm : CaseMap) (s : StructMeta) (fields : List CSharpField) (isVariant : Bool) (w : Writer) : Writer :=
  let name := s.name.csharpName.toList
  let varName := uncapFirstChar cm name
  let typeName := if !isVariant then name ++ typeParams s.typeParams else name
  let access := if isVariant then lit! "internal" else lit! "public"
  let spaced := decide (s.typeParams.length > 1) && decide (fields.length > 1)
  let w := w.writeln (fmt (fmt! "public sealed partial class {} : IState {{" typeName)) |>.indent
  let w := w.writeln (lit! "public Path Path { get; }")
  let w := if fields.length > 1 then w.newline else w
  let w := each fields (fun w f => w.writeln (fmt (fmt! "public {} {} {{ get; private set; }}" f.typeName, f.name))) w
  let w := w.newline.writeln (fmt (fmt! "{} {}(Path path = null) {{" access, name)) |>.indent
  let w := each s.typeParams (fun w p => w.writeln (fmt (fmt! "StateFactory.ValidateType(typeof({}));" p.toList))) w
  let w := if spaced then w.newline else w
  let w := w.writeln (lit! "this.Path = path ?? Path.Root;")
  let w := if spaced then w.newline else w
  let w := each fields (fun w f => writelnSome (fmt! "this.{} = " f.name) (fieldInit f) (fmt! ";") w) w
  let w := w.outdentWriteln (lit! "}") |>.newline
  let w := each fields (fun w f => w.writeln
    (fmt (fmt! "public static event EventHandler<FieldUpdateEventArgs<{}, {}>> On{}Update;" f.typeName, typeName, f.name))) w
  let w := if !fields.isEmpty then w.newline else w
  let w := each fields (genClearField (decide (fields.length > 1))) w
  let w := if !fields.isEmpty then w.newline else w
  let w := (genClearAll fields w).newline
  let w := w.writeln (fmt (fmt! "{} static {} Deserialize(IReader reader, Path path = null) {{" access, typeName))
  let w := w.indentWriteln (fmt (fmt! "var {} = new {}(path);" varName, typeName))
  let w := w.writeln (fmt (fmt! "{}.Replace(reader, shouldNotify: false);" varName))
  let w := w.writeln (fmt (fmt! "return {};" varName))
  let w := w.outdentWriteln (lit! "}") |>.newline
  let w := w.writeln (lit! "public WireType? GetWireType(UInt32 tag) {")
  let w := w.indentWriteln (lit! "switch (tag) {") |>.indent
  let w := each s.fields (fun w f => w.writeln (fmt (fmt! "case {}: return {};" decimal f.tag, fieldWireType f))) w
  let w := w.writeln (lit! "default: return null;")
  let w := w.outdentWriteln (lit! "}") |>.outdentWriteln (lit! "}") |>.newline
  let w := w.writeln (lit! "public IState GetNested(UInt32 tag) {")
  let w := w.indentWriteln (lit! "switch (tag) {") |>.indent
  let w := each fields (fun w f => writelnSome (fmt! "case {}: return " decimal f.data.tag) (fieldNested f) (fmt! ";") w) w
  let w := w.writeln (lit! "default: return null;")
  let w := w.outdentWriteln (lit! "}") |>.outdentWriteln (lit! "}") |>.newline
  let w := w.writeln (lit! "public void ReplaceAt(UInt32 tag, WireType wireType, IReader reader, bool shouldNotify) {")
  let w := w.indentWriteln (lit! "switch (tag) {") |>.indent
  let w := each fields (fun w f => w.writeln (fieldReplace f)) w
  let w := w.writeln (lit! "default: reader.SkipField(wireType); break;")
  let w := w.outdentWriteln (lit! "}") |>.outdentWriteln (lit! "}") |>.newline
  let w := w.writeln (lit! "public void ReplayListPush(IReader reader) { throw new NotSupportedException(); }")
  let w := w.writeln (lit! "public void ReplayListPop() { throw new NotSupportedException(); }")
  let w := w.writeln (lit! "public void ReplayMapRemove(UInt32 key) { throw new NotSupportedException(); }")
  let w := w.newline.writeln (lit! "private TValue MaybeNotify<TValue>(")
  let w := w.indentWriteln (lit! "UInt32 tag,")
  let w := w.writeln (lit! "TValue newValue,") |>.writeln (lit! "TValue oldValue,")
  let w := w.writeln (fmt (fmt! "EventHandler<FieldUpdateEventArgs<TValue, {}>> handler," typeName))
  let w := w.writeln (lit! "bool shouldNotify")
  let w := w.outdentWriteln (lit! ") {")
  let w := w.indentWriteln (lit! "if (shouldNotify) {")
  let w := w.indentWriteln (fmt (fmt! "var args = new FieldUpdateEventArgs<TValue, {}>(tag, newValue, oldValue, this);" typeName))
  let w := w.writeln (lit! "handler?.Invoke(this, args);")
  let w := w.outdentWriteln (lit! "}") |>.newline
  let w := w.writeln (lit! "return newValue;")
  w.outdentWriteln (lit! "}") |>.outdentWriteln (lit! "}")

/-- `gen_struct`, `steit/src/gen/generators/csharp.rs:70-372`. -/
def genStruct (cm : CaseMap) (s : StructMeta) (isVariant : Bool) (setting : CSharpSetting) (w : Writer) : Option Writer :=
  match CSharpField.fromMetas cm s.fields with
  | none => none
  | some fields =>
    let w := if !isVariant then genFileOpening setting w else w
    let w := genClass cm s fields isVariant w
    some (if !isVariant then genFileClosing w else w)

/-- The loop over variants at the end of `gen_enum`, `steit/src/gen/generators/csharp.rs:560-571`. -/
def genVariants (cm : CaseMap) (setting : CSharpSetting) : List VariantMeta → Writer → Option Writer
  | [], w => some w
  | v :: vs, w =>
    let w := w.newline.writeln (fmt (fmt! "// Variant ({}): {}" decimal v.tag, v.ty.name.csharpName.toList)) |>.newline
    match genStruct cm v.ty true setting w with
    | none => none
    | some w => genVariants cm setting vs w

/-- `gen_enum` between the opening of the file and the loop over variants, `steit/src/gen/generators/csharp.rs:392-558`. `dflt` is the
default variant. -/
def genEnumClass (cm : CaseMap) (e : EnumMeta) (dflt : VariantMeta) (w : Writer) : Writer :=
  let name := e.name.csharpName.toList
  let varName := uncapFirstChar cm name
  let typeName := name ++ typeParams e.typeParams
  let camel (v : VariantMeta) := toCamelCase cm v.ty.name.csharpName.toList true
  let plain (v : VariantMeta) := v.ty.name.csharpName.toList
  let spaced := decide (e.typeParams.length > 1)
  let w := w.writeln (fmt (fmt! "public sealed partial class {} : IEnumState {{" typeName)) |>.indent
  let w := each e.variants (fun w v => w.writeln (fmt (fmt! "public const UInt32 {}Tag = {};" camel v, decimal v.tag))) w
  let w := w.newline.writeln (lit! "public Path Path { get; }") |>.newline
  let w := w.writeln (lit! "public UInt32 Tag { get; private set; }")
  let w := w.writeln (lit! "public IState Variant { get; private set; }") |>.newline
  let w := each e.variants (fun w v =>
    w.writeln (fmt (fmt! "public {0} {0}Variant {{ get {{ return this.Variant as {0}; }} }}" plain v))) w
  let w := w.newline.writeln (fmt (fmt! "public {}(Path path = null) : this(path, {}) {{ }}" name, decimal dflt.tag)) |>.newline
  let w := w.writeln (fmt (fmt! "public {}(Path path, UInt32 tag) {{" name)) |>.indent
  let w := each e.typeParams (fun w p => w.writeln (fmt (fmt! "StateFactory.ValidateType(typeof({}));" p.toList))) w
  let w := if spaced then w.newline else w
  let w := w.writeln (lit! "this.Path = path ?? Path.Root;")
  let w := if spaced then w.newline else w
  let w := w.writeln (lit! "this.Tag = tag;") |>.newline |>.writeln (lit! "switch (tag) {") |>.indent
  let w := each e.variants (fun w v => w.writeln
    (fmt (fmt! "case {0}: this.Variant = new {1}(this.Path.GetNested({0})); break;" decimal v.tag, plain v))) w
  let w := w.writeln (fmt (fmt! "default: this.Variant = new {}(this.Path.GetNested({})); break;" plain dflt, decimal dflt.tag))
  let w := w.outdentWriteln (lit! "}") |>.outdentWriteln (lit! "}") |>.newline
  let w := each e.variants (fun w v => w.writeln
    (fmt (fmt! "public static {0} New{1}(Path path = null) {{ return new {0}(path, {2}); }}" name, camel v, decimal v.tag))) w
  let w := w.newline.writeln (fmt (fmt! "public static event EventHandler<VariantUpdateEventArgs<{}>> OnUpdate;" typeName)) |>.newline
  let w := w.writeln (lit! "public static void ClearUpdateHandlers() {")
  let w := w.indentWriteln (lit! "OnUpdate = null;") |>.outdentWriteln (lit! "}") |>.newline
  let w := w.writeln (fmt (fmt! "public static {} Deserialize(IReader reader, Path path = null) {{" typeName))
  let w := w.indentWriteln (fmt (fmt! "var {} = new {}(path);" varName, typeName))
  let w := w.writeln (fmt (fmt! "{}.Replace(reader, shouldNotify: false);" varName))
  let w := w.writeln (fmt (fmt! "return {};" varName))
  let w := w.outdentWriteln (lit! "}") |>.newline
  let w := w.writeln (lit! "public WireType? GetWireType(UInt32 tag) {")
  let w := w.indentWriteln (lit! "switch (tag) {") |>.indent
  let w := each e.variants (fun w v => w.writeln (fmt (fmt! "case {}: return WireType.Sized;" decimal v.tag))) w
  let w := w.writeln (lit! "default: return null;")
  let w := w.outdentWriteln (lit! "}") |>.outdentWriteln (lit! "}") |>.newline
  let w := w.writeln (lit! "public IState GetNested(UInt32 tag) {")
  let w := w.indentWriteln (lit! "return tag == this.Tag ? this.Variant : null;") |>.outdentWriteln (lit! "}") |>.newline
  let w := w.writeln (lit! "public void ReplaceAt(UInt32 tag, WireType wireType, IReader reader, bool shouldNotify) {")
  let w := w.indentWriteln (lit! "switch (tag) {") |>.indent
  let w := each e.variants (fun w v => w.writeln (fmt (fmt! "case {0}: this.UpdateAndNotify({0}, {1}.Deserialize(reader, this.Path.GetNested({0})), shouldNotify); break;"
    decimal v.tag, plain v))) w
  let w := w.writeln (lit! "default: reader.SkipToEnd(); break;")
  let w := w.outdentWriteln (lit! "}") |>.outdentWriteln (lit! "}") |>.newline
  let w := w.writeln (lit! "public void ReplayListPush(IReader reader) { throw new NotSupportedException(); }")
  let w := w.writeln (lit! "public void ReplayListPop() { throw new NotSupportedException(); }")
  let w := w.writeln (lit! "public void ReplayMapRemove(UInt32 key) { throw new NotSupportedException(); }")
  let w := w.newline.writeln (lit! "private void UpdateAndNotify(UInt32 newTag, IState newVariant, bool shouldNotify) {")
  let w := w.indentWriteln (lit! "if (shouldNotify) {")
  let w := w.indentWriteln (fmt (fmt! "var args = new VariantUpdateEventArgs<{}>(newTag, newVariant, this.Tag, this.Variant, this);" typeName))
  let w := w.writeln (fmt (fmt! "{}.OnUpdate?.Invoke(this, args);" typeName))
  let w := w.outdentWriteln (lit! "}") |>.newline
  let w := w.writeln (lit! "this.Tag = newTag;") |>.writeln (lit! "this.Variant = newVariant;")
  w.outdentWriteln (lit! "}")

/-- `gen_enum`, `steit/src/gen/generators/csharp.rs:374-576`. -/
def genEnum (cm : CaseMap) (e : EnumMeta) (setting : CSharpSetting) (w : Writer) : Option Writer :=
  match e.variants.find? fun v => v.tag == 0 with
  | none => none
  | some dflt =>
    match genVariants cm setting e.variants (genEnumClass cm e dflt (genFileOpening setting w)) with
    | none => none
    | some w => some (genFileClosing (w.outdentWriteln (lit! "}")))

/-- The source `generate` writes into the file of a message, `steit/src/gen/generator.rs:37-49`; the indentation is
`steit/src/gen/generators/csharp.rs:66`. -/
def source (cm : CaseMap) (setting : CSharpSetting) (m : MessageMeta) : Option Text :=
  let w := Writer.new 4
  match m with
  | .struct s => (genStruct cm s false setting w).map Writer.finish
  | .enum e => (genEnum cm e setting w).map Writer.finish

end Steit.Gen
