import Verif.Lemmas.Names

/-!
# C49: generated source

The writer, the text of generated C# files, and the conversion of names. Whether the text is a C# program that compiles is not decided
here (there is no model of C#); what is: its brackets match, each line is indented by the brackets open before it, and which names can
collide.
-/

namespace Steit.Gen

open Spec

/-! ## The writer -/

/-- Texts written by calls: each call writes at the level its predecessors leave. -/
inductive Spec.Wrote (size : Nat) : List Call → Text → Prop
  | none : Wrote size [] []
  | call {cs t n c} : Wrote size cs t → Level cs n → Wrote size (cs ++ [c]) (t ++ written size n c)

/-- C49. Whatever is called in whatever order, the level is the largest balance of a final segment of the calls (never negative), and
each call writes at the level of that moment. -/
theorem C49_writer (size : Nat) (cs : List Call) :
    Level cs (runCalls cs (.new size)).level ∧ Wrote size cs (runCalls cs (.new size)).finish := by
  refine ⟨runCalls_level cs size, ?_⟩
  suffices h : ∀ (done rest : List Call), Wrote size done (runCalls done (.new size)).finish →
      Wrote size (done ++ rest) (runCalls (done ++ rest) (.new size)).finish from h [] cs .none
  intro done rest
  induction rest generalizing done with
  | nil => intro h; rw [List.append_nil]; exact h
  | cons c rest ih =>
    intro h
    have := ih (done ++ [c])
    rw [List.append_assoc] at this
    refine this ?_
    have hs := runCalls_size done (.new size)
    have h' := Wrote.call (c := c) h (runCalls_level done size)
    rw [runCalls_append]
    suffices he : (runCalls [c] (runCalls done (.new size))).finish =
        (runCalls done (.new size)).finish ++ written size (runCalls done (.new size)).level c by rw [he]; exact h'
    show (c.run _).finish = _
    generalize runCalls done (.new size) = w at hs
    have hs : w.indentSize = size := hs
    cases c with
    | outdent =>
      simp only [Spec.Call.run, Writer.outdent, Writer.finish, written, List.append_nil]
      split <;> rfl
    | indent => simp [Spec.Call.run, Writer.indent, Writer.finish, written]
    | write t => rfl
    | newline => rfl
    | writeIndentation => simp only [Spec.Call.run, Writer.writeIndentation, Writer.write, Writer.finish, written, hs]

/-- Too many `outdent`s are forgiven, and forgotten. -/
example : (runCalls [.indent, .outdent, .outdent, .indent, .write ['x']] (.new 4)).level = 1 := rfl

/-! ## Generated files -/

/-- C49. Every generated file is well bracketed, all brackets closed at its end, and every line is indented by four spaces for each
bracket open: for every struct and enum whose names contain no brackets, spaces or line breaks. -/
theorem C49_well_bracketed {cm : CaseMap} (hk : KeepsNames cm) {setting : CSharpSetting} (hn : IsName setting.namespace')
    (hu : ∀ u ∈ setting.usedNamespaces, IsName u) {m : MessageMeta} (hm : Named m) {t : Text} (h : source cm setting m = some t) :
    Laid 4 [] t [] := by
  have h0 : Doc 4 (.new 4) [] 0 := ⟨rfl, rfl, .nil⟩
  have h1 := doc_opening hn hu h0
  unfold source at h
  cases m with
  | struct s =>
    simp only [genStruct, Bool.not_false, if_true] at h
    cases hf : CSharpField.fromMetas cm s.fields with
    | none => rw [hf] at h; cases h
    | some fields =>
      rw [hf] at h
      cases h
      exact (doc_class hk hm (fromMetas_ok hk hm.fields hf) false h1).brace.laid
  | enum e =>
    simp only [genEnum] at h
    cases hd : e.variants.find? fun v => v.tag == 0 with
    | none => rw [hd] at h; cases h
    | some dflt =>
      rw [hd] at h
      simp only at h
      cases hv : genVariants cm setting e.variants (genEnumClass cm e dflt (genFileOpening setting (.new 4))) with
      | none => rw [hv] at h; cases h
      | some w =>
        rw [hv] at h
        cases h
        have h2 := doc_enumClass hk hm.1 hm.2.1 hm.2.2 (List.mem_of_find?_eq_some hd) h1
        exact (doc_variants hk hm.2.2 h2 hv).brace.brace.laid

/-- C49. The generator panics on exactly the messages with a primitive type that has no name in C#, and on enums without a variant of
tag 0. -/
theorem C49_generates_iff (cm : CaseMap) (setting : CSharpSetting) (m : MessageMeta) : source cm setting m ≠ none ↔
    match m with
    | .struct s => ∀ f ∈ s.fields, KnownField f.ty
    | .enum e => (∃ v ∈ e.variants, v.tag = 0) ∧ ∀ v ∈ e.variants, ∀ f ∈ v.ty.fields, KnownField f.ty := by
  unfold source
  cases m with
  | struct s =>
    have h := fromMetas_known (cm := cm) s.fields
    simp only [genStruct, ← h]
    cases CSharpField.fromMetas cm s.fields <;> simp
  | enum e =>
    simp only [genEnum]
    cases hd : e.variants.find? fun v => v.tag == 0 with
    | none =>
      have := List.find?_eq_none.1 hd
      simp only [beq_iff_eq] at this
      simp only [Option.map_none, ne_eq, not_true_eq_false, false_iff, not_and]
      rintro ⟨v, hv, h0⟩
      exact absurd h0 (this v hv)
    | some dflt =>
      have hmem := List.mem_of_find?_eq_some hd
      have h0 := List.find?_some hd
      simp only [beq_iff_eq] at h0
      have hv := genVariants_known (cm := cm) (setting := setting) e.variants (genEnumClass cm e dflt (genFileOpening setting (.new 4)))
      have hex : (∃ v ∈ e.variants, v.tag = 0) := ⟨dflt, hmem, h0⟩
      simp only [hex, true_and, ← hv]
      cases genVariants cm setting e.variants (genEnumClass cm e dflt (genFileOpening setting (.new 4))) <;> simp

/-! ## Names -/

/-- C49. What `to_camel_case` makes of a name: its parts between underscores, each (or each but the first) capitalized. -/
theorem C49_camel_case (cm : CaseMap) (t : Text) :
    toCamelCase cm t true = ((parts t).map (capitalized cm)).flatten ∧
    ∀ p ps, parts t = p :: ps → toCamelCase cm t false = p ++ (ps.map (capitalized cm)).flatten := camel_parts t

/-- C49. Names in snake case (parts beginning with a letter) survive the way to camel case and back. -/
theorem C49_snake_camel_snake {cm : CaseMap} {t : Text} (h : Snake cm t) : toSnakeCase cm (toCamelCase cm t true) = t := snake_camel h

/-- C49. Names in camel case survive the way to snake case and back. -/
theorem C49_camel_snake_camel {cm : CaseMap} {t : Text} (h : Camel cm t) : toCamelCase cm (toSnakeCase cm t) true = t := camel_snake h

/-- C49. Of names in snake case, different fields get different properties. -/
theorem C49_snake_case_names_stay_distinct {cm : CaseMap} {a b : Text} (ha : Snake cm a) (hb : Snake cm b)
    (h : toCamelCase cm a true = toCamelCase cm b true) : a = b := by
  rw [← C49_snake_camel_snake ha, h, C49_snake_camel_snake hb]

/-- C49. Other names collide: a struct with fields `x1` and `x_1` gets two properties of the same name, and C# refuses the class. -/
theorem C49_other_names_collide : ∃ (a b : FieldMeta) (ca cb : CSharpField), a.name ≠ b.name ∧ a.tag ≠ b.tag ∧
    CSharpField.fromMetas ascii [a, b] = some [ca, cb] ∧ ca.name = cb.name := by
  refine ⟨⟨⟨"x1", none⟩, .type (.primitive ⟨"u8", some "Byte"⟩ .varint), 0#32⟩, ⟨⟨"x_1", none⟩, .type (.primitive ⟨"u8", some "Byte"⟩ .varint), 1#32⟩,
    _, _, by decide, by decide, rfl, by decide +kernel⟩

/-- The reserved words of C# (those that are also names in lower case). -/
def Spec.csharpKeywords : List String := ["abstract", "as", "base", "bool", "break", "byte", "case", "catch", "char", "checked", "class",
  "const", "continue", "decimal", "default", "delegate", "do", "double", "else", "enum", "event", "explicit", "extern", "false", "finally",
  "fixed", "float", "for", "foreach", "goto", "if", "implicit", "in", "int", "interface", "internal", "is", "lock", "long", "namespace",
  "new", "null", "object", "operator", "out", "override", "params", "private", "protected", "public", "readonly", "ref", "return",
  "sbyte", "sealed", "short", "sizeof", "stackalloc", "static", "string", "struct", "switch", "this", "throw", "true", "try", "typeof",
  "uint", "ulong", "unchecked", "unsafe", "ushort", "using", "virtual", "void", "volatile", "while"]

/-- C49, defect: for a type named like a reserved word (a struct `Event`, say), the variable in `Deserialize` is the word. -/
theorem C49_keyword_as_variable : ∃ name : String, name.toList ≠ [] ∧
    uncapFirstChar ascii name.toList ∈ csharpKeywords.map String.toList := ⟨"Event", by decide +kernel, by decide +kernel⟩

/-- C49, defect: where a `Map` hides behind a type alias, its metadata has one type argument only, and the field gets the type
`StateMap<>`. -/
theorem C49_map_behind_alias {v : TypeMeta} (h : KnownType v) :
    fieldType (.type (.ref ⟨"Map", some "StateMap"⟩ (.cons (.type v) .nil))) = some (lit! "StateMap<>") := by
  have := (typeName_known v).2 h
  cases hv : typeName v with
  | none => exact absurd hv this
  | some t =>
    have h1 : fieldType (.type v) = some t := hv
    have hb : ("StateMap" = "Box") = False := by simp
    have hl : "StateMap".toList = lit! "StateMap" := by decide +kernel
    simp only [fieldType, typeName, NameMeta.csharpName, Option.getD_some, hv, fieldTypes, hb, if_false, hl]
    rfl

/-- C49, defect: a boxed primitive gets the type of the primitive, but is constructed like a message, and C# refuses
`new UInt32(this.Path.GetNested(3))`. -/
theorem C49_boxed_primitive (cm : CaseMap) (name : NameMeta) (prim : String) (w : WireType) (fname : NameMeta) (tag : U32) :
    ∃ f, CSharpField.fromMeta cm ⟨fname, .type (.ref ⟨"Box", none⟩ (.cons (.type (.primitive ⟨name.rust, some prim⟩ w)) .nil)), tag⟩ = some f ∧
      f.typeName = prim.toList ∧ fieldInit f = some (fmt (fmt! "new {}(this.Path.GetNested({}))" prim.toList, decimal tag)) :=
  ⟨_, rfl, rfl, rfl⟩

example : (CSharpField.fromMeta ascii ⟨⟨"x", none⟩, .type (.ref ⟨"Box", none⟩ (.cons (.type (.primitive ⟨"u32", some "UInt32"⟩ .varint)) .nil)),
    3#32⟩).bind fieldInit = some (lit! "new UInt32(this.Path.GetNested(3))") := by decide +kernel

/-! ## Examples -/

/-- `struct Foo { n: u32, items: List<Bar> }`. -/
def exFoo : MessageMeta := .struct ⟨⟨"Foo", none⟩, ["T"], [⟨⟨"n", none⟩, .type (.primitive ⟨"u32", some "UInt32"⟩ .varint), 0#32⟩,
  ⟨⟨"other_items", none⟩, .type (.ref ⟨"List", some "StateList"⟩ (.cons (.typeParam "T") .nil)), 7#32⟩], false⟩

example : Named exFoo := by
  refine ⟨by decide +kernel, by simp only [List.mem_singleton, forall_eq]; decide +kernel, ?_⟩
  intro f hf
  simp only [List.mem_cons, List.not_mem_nil, or_false] at hf
  rcases hf with rfl | rfl
  · refine ⟨by decide +kernel, ?_⟩
    intro n hn
    cases hn
    decide +kernel
  · exact ⟨by decide +kernel, by decide +kernel, (by decide +kernel : IsName "T".toList), trivial⟩

example : source ascii ⟨lit! "Game", []⟩ exFoo ≠ none :=
  (C49_generates_iff _ _ _).2 fun f hf => by
    simp only [List.mem_cons, List.not_mem_nil, or_false] at hf
    rcases hf with rfl | rfl
    · exact fun h => (nomatch h)
    · exact ⟨trivial, trivial⟩

example : KeepsNames ascii := ascii_keeps

example : Snake ascii (lit! "other_items2") := by
  intro p hp
  have : parts (lit! "other_items2") = [lit! "other", lit! "items2"] := by decide
  rw [this] at hp
  simp only [List.mem_cons, List.not_mem_nil, or_false] at hp
  rcases hp with rfl | rfl
  · refine ⟨_, _, rfl, ascii_letter (by decide) (by decide), fun x hx => ascii_small ?_⟩
    revert x; decide
  · refine ⟨_, _, rfl, ascii_letter (by decide) (by decide), fun x hx => ascii_small ?_⟩
    revert x; decide

end Steit.Gen
