import Verif.Lemmas.Tables

/-!
# What is read off the classes the generator writes
-/

namespace Steit.Gen

open Steit.Gen.Spec Steit.Spec

set_option maxRecDepth 8192

variable {w : Writer} {cs : List Class} {cm : CaseMap}

theorem out_opening {setting : CSharpSetting} (hn : IsName setting.namespace') (hu : ∀ u ∈ setting.usedNamespaces, IsName u)
    (h : Out w ⟨.elsewhere, cs⟩) : Out (genFileOpening setting w) ⟨.elsewhere, cs⟩ := by
  unfold genFileOpening
  extract_lets w1 used w2
  have h1 : Out w1 ⟨.elsewhere, cs⟩ := (h.lit (σ' := ⟨.elsewhere, cs⟩) rfl).newline
  have h2 : Out w2 ⟨.elsewhere, cs⟩ := h1.eachIdle fun u hmem w h => by
    have : '\n' ∉ u := by
      rcases List.mem_append.1 (sortTexts_mem hmem) with hm | hm
      · simp only [List.mem_cons, List.not_mem_nil, or_false] at hm
        rcases hm with rfl | rfl | rfl | rfl | rfl <;> decide
      · exact name_nl (hu u hm)
    exact h.fmt (fs := fmt! "using {};" u) ⟨rfl, this, rfl, trivial⟩ rfl
  exact (h2.newline.fmt (fs := fmt! "namespace {} {{" setting.namespace') (σ' := ⟨.elsewhere, cs⟩) ⟨rfl, name_nl hn, rfl, trivial⟩ rfl).indent

theorem out_clearField {f : CSharpField} (hf : FieldOk f) (many : Bool) (h : Out w ⟨.elsewhere, cs⟩) :
    Out (genClearField many w f) ⟨.elsewhere, cs⟩ := by
  have hu := name_nl hf.name
  unfold genClearField
  cases many with
  | true =>
    simp only [if_true, write_write, writeln_split, List.append_assoc]
    have := h.idle (fs := fmt! "public static void Clear{0}UpdateHandlers() {{ On{0}Update = null; }}" f.name)
      ⟨rfl, hu, rfl, hu, rfl, trivial⟩
    simpa [fmt, Frag.text] using this
  | false =>
    simp only [Bool.false_eq_true, if_false, writeln_split]
    have h1 := (h.idle (fs := fmt! "public static void Clear{0}UpdateHandlers() {{" f.name) ⟨rfl, hu, rfl, trivial⟩).indent
    have h2 := h1.idle (fs := fmt! "On{0}Update = null;" f.name) ⟨rfl, hu, rfl, trivial⟩
    exact h2.outdent.lit rfl

theorem out_clearAll {fields : List CSharpField} (hf : ∀ f ∈ fields, FieldOk f) (h : Out w ⟨.elsewhere, cs⟩) :
    Out (genClearAll fields w) ⟨.elsewhere, cs⟩ := by
  unfold genClearAll
  cases fields with
  | nil =>
    simp only [List.isEmpty_nil, Bool.not_true, Bool.false_eq_true, if_false, each, List.foldl_nil, write_write, writeln_split]
    exact h.lit rfl
  | cons f fs =>
    simp only [List.isEmpty_cons, Bool.not_false, if_true]
    have h1 : Out (w.writeln (lit! "public static void ClearUpdateHandlers() {")).indent ⟨.elsewhere, cs⟩ :=
      (h.lit (σ' := ⟨.elsewhere, cs⟩) rfl).indent
    have key : ∀ (w' : Writer), Out w'.newline ⟨.elsewhere, cs⟩ →
        Out (each (f :: fs) (fun w x => (w.newline.writeIndentation).write (fmt (fmt! "On{}Update = null;" x.name))) w').newline
          ⟨.elsewhere, cs⟩ := by
      intro w' hw'
      have e : (each (f :: fs) (fun w x => (w.newline.writeIndentation).write (fmt (fmt! "On{}Update = null;" x.name))) w').newline =
          each (f :: fs) (fun w x => w.writeln (fmt (fmt! "On{}Update = null;" x.name))) w'.newline :=
        clearAll_lines (fun x => fmt (fmt! "On{}Update = null;" x.name)) w'.newline (fmt (fmt! "On{}Update = null;" f.name)) fs
      rw [e]
      exact hw'.eachIdle fun x hx w h => h.idle (fs := fmt! "On{}Update = null;" x.name) ⟨rfl, name_nl (hf x hx).name, rfl, trivial⟩
    rw [each_newline_comm]
    exact (key (w.writeIndentation.write (lit! "public static void ClearUpdateHandlers() {")).indent h1).outdent.lit rfl

/-! ## What is read off -/

/-- The statement of `GetWireType` for a field. -/
def wireStmt (f : FieldMeta) : Text := lit! "return " ++ (fieldWireType f ++ lit! ";")

/-- The case of `GetNested` for a field. -/
def nestedCase (f : CSharpField) : Option (Nat × Text) :=
  (fieldNested f).map fun t => (f.data.tag.toNat, lit! "return " ++ (t ++ lit! ";"))

/-- The statement of `ReplaceAt` for a field. -/
def replaceStmt (f : CSharpField) : Text :=
  match f.data.ty with
  | .type (.primitive _ _) =>
    fmt (fmt! "this.{1} = this.MaybeNotify({0}, reader.Read{2}(), this.{1}, On{1}Update, shouldNotify); break;"
      decimal f.data.tag, f.name, f.typeName)
  | .type (.ref _ _) =>
    fmt (fmt! "this.{1} = this.MaybeNotify({0}, {2}.Deserialize(reader, this.Path.GetNested({0})), this.{1}, On{1}Update, shouldNotify); break;"
      decimal f.data.tag, f.name, f.typeName)
  | .typeParam _ =>
    fmt (fmt! "this.{1} = this.MaybeNotify({0}, StateFactory.Deserialize<{2}>(reader, this.Path, {0}), this.{1}, On{1}Update, shouldNotify); break;"
      decimal f.data.tag, f.name, f.typeName)

/-- What the constructor makes for a field. -/
def madeFor (f : CSharpField) : Option Made :=
  match f.data.ty with
  | .type (.primitive _ _) => none
  | .type (.ref _ _) => some ⟨f.name, lit! "new " ++ f.typeName, f.data.tag.toNat⟩
  | .typeParam p => some ⟨f.name, lit! "StateFactory.Construct<" ++ (p.toList ++ lit! ">"), f.data.tag.toNat⟩

/-- What is read off the class of a struct or variant. -/
def classFor (name : Text) (fields : List CSharpField) : Class :=
  ⟨name, false, fields.map fun f => (f.typeName, f.name), fields.filterMap madeFor, none, ⟨[], none⟩,
    ⟨fields.filterMap fun f => some (f.data.tag.toNat, wireStmt f.data), some (lit! "return null;")⟩,
    ⟨fields.filterMap nestedCase, some (lit! "return null;")⟩,
    ⟨fields.filterMap fun f => some (f.data.tag.toNat, replaceStmt f), some (lit! "reader.SkipField(wireType); break;")⟩⟩

theorem replace_split (f : CSharpField) :
    fieldReplace f = lit! "case " ++ (decimal f.data.tag ++ (lit! ": " ++ replaceStmt f)) := by
  unfold fieldReplace replaceStmt
  split <;> (rename_i heq; simp only [heq]; rfl)

theorem replace_nl {f : CSharpField} (hf : FieldOk f) : '\n' ∉ replaceStmt f := by
  have d : '\n' ∉ decimal f.data.tag := decimal_no _ (by decide)
  have m := name_nl hf.name
  have t := unbr_nl hf.type
  unfold replaceStmt
  split
  · exact NoBreaks.fmt ⟨rfl, m, rfl, d, rfl, t, rfl, m, rfl, m, rfl, trivial⟩
  · exact NoBreaks.fmt ⟨rfl, m, rfl, d, rfl, t, rfl, d, rfl, m, rfl, m, rfl, trivial⟩
  · exact NoBreaks.fmt ⟨rfl, m, rfl, d, rfl, t, rfl, d, rfl, m, rfl, m, rfl, trivial⟩

theorem prop_append {type name : Text} (h : ' ' ∉ name) :
    prop? (lit! "public " ++ ((type ++ (lit! " " ++ name)) ++ lit! " { get; private set; }")) = some (type, name) := by
  unfold prop?
  rw [between_append]
  have h' : ' ' ∉ name.reverse := fun hm => h (List.mem_reverse.1 hm)
  have e : (type ++ (lit! " " ++ name)).reverse = name.reverse ++ ' ' :: type.reverse := by simp
  rw [Option.bind_some, e, upTo_append h']
  simp only [after?, if_true, Option.map_some, List.reverse_reverse]

theorem class_append (name : Text) :
    class? (lit! "public sealed partial class " ++ (name ++ lit! " : IState {")) = some (name, false) := by
  unfold class?
  rw [between_append]; rfl

theorem class_append_enum (name : Text) :
    class? (lit! "public sealed partial class " ++ (name ++ lit! " : IEnumState {")) = some (name, true) := by
  unfold class?
  have : between? (lit! "public sealed partial class ") (lit! " : IState {")
      (lit! "public sealed partial class " ++ (name ++ lit! " : IEnumState {")) = none := by
    cases h : between? (lit! "public sealed partial class ") (lit! " : IState {")
        (lit! "public sealed partial class " ++ (name ++ lit! " : IEnumState {")) with
    | none => rfl
    | some u =>
      have h1 := between_suffix h
      have h2 : (lit! " : IEnumState {") <:+ lit! "public sealed partial class " ++ (name ++ lit! " : IEnumState {") :=
        ⟨lit! "public sealed partial class " ++ name, by simp⟩
      rcases List.suffix_or_suffix_of_suffix h1 h2 with h | h
      · exact absurd h (by decide)
      · exact absurd h (by decide)
  rw [this, between_append]; rfl

theorem line_class {name l : Text} {b : Bool} (h : class? l = some (name, b)) (hl : (lit! "public sealed ") <+: l) :
    Scan.line ⟨.elsewhere, cs⟩ l =
      ⟨.elsewhere, ⟨name, b, [], [], none, ⟨[], none⟩, ⟨[], none⟩, ⟨[], none⟩, ⟨[], none⟩⟩ :: cs⟩ := by
  obtain ⟨r, rfl⟩ := hl
  unfold Scan.line
  simp only [h]
  rfl

theorem line_prop {c : Class} {type name : Text} (h : ' ' ∉ name) {l : Text}
    (hl : l = lit! "public " ++ ((type ++ (lit! " " ++ name)) ++ lit! " { get; private set; }")) :
    Scan.line ⟨.elsewhere, c :: cs⟩ l = ⟨.elsewhere, { c with props := c.props ++ [(type, name)] } :: cs⟩ := by
  have hp := prop_append (type := type) h
  rw [← hl] at hp
  have hs : (lit! " { get; private set; }") <:+ l := ⟨lit! "public " ++ (type ++ (lit! " " ++ name)), by rw [hl]; simp⟩
  have ne : ∀ q : Text, (!q.isSuffixOf (lit! " { get; private set; }") && !(lit! " { get; private set; }").isSuffixOf q) = true → ¬ q <:+ l := by
    intro q hq hsuf
    simp only [Bool.and_eq_true, Bool.not_eq_true', ← Bool.not_eq_true, List.isSuffixOf_iff_suffix] at hq
    rcases List.suffix_or_suffix_of_suffix hsuf hs with h | h
    · exact hq.1 h
    · exact hq.2 h
  have nq : ∀ q : Text, (!q.isSuffixOf (lit! " { get; private set; }") && !(lit! " { get; private set; }").isSuffixOf q) = true → l ≠ q :=
    fun q hq he => ne q hq (he ▸ List.suffix_rfl)
  have e1 : class? l = none := by
    have b : ∀ q : Text, (!q.isSuffixOf (lit! " { get; private set; }") && !(lit! " { get; private set; }").isSuffixOf q) = true →
        between? (lit! "public sealed partial class ") q l = none := fun q hq => by
      cases h : between? (lit! "public sealed partial class ") q l with
      | none => rfl
      | some u => exact absurd (between_suffix h) (ne q hq)
    unfold class?
    rw [b _ rfl, b _ rfl]; rfl
  unfold Scan.line
  simp only [e1, hp, Scan.change]
  rw [if_neg (nq _ rfl), if_neg (nq _ rfl), if_neg (nq _ rfl), if_neg (nq _ rfl)]

theorem line_made {c : Class} {prop how : Text} {tag : U32} (hp : ' ' ∉ prop) (hh : '(' ∉ how) {l : Text}
    (hl : l = lit! "this." ++ ((prop ++ (lit! " = " ++ (how ++ (lit! "(this.Path.GetNested(" ++ decimal tag)))) ++ lit! "));")) :
    Scan.line ⟨.elsewhere, c :: cs⟩ l = ⟨.elsewhere, { c with made := c.made ++ [⟨prop, how, tag.toNat⟩] } :: cs⟩ := by
  have hm : made? l = some ⟨prop, how, tag.toNat⟩ := by
    unfold made?
    rw [hl, between_append]
    have e1 : upTo ' ' (prop ++ (lit! " = " ++ (how ++ (lit! "(this.Path.GetNested(" ++ decimal tag)))) =
        (prop, lit! " = " ++ (how ++ (lit! "(this.Path.GetNested(" ++ decimal tag))) := upTo_append hp
    have e2 : upTo '(' (how ++ (lit! "(this.Path.GetNested(" ++ decimal tag)) = (how, lit! "(this.Path.GetNested(" ++ decimal tag) :=
      upTo_append hh
    rw [Option.bind_some, e1, after_append, Option.bind_some, e2, after_append, Option.bind_some, number_decimal]; rfl
  have e1 : class? l = none := by rw [hl]; rfl
  have e2 : prop? l = none := by rw [hl]; rfl
  unfold Scan.line
  simp only [e1, e2, hm, Scan.change]
  rw [if_neg (by rw [hl]; exact fun h => (nomatch h)), if_neg (by rw [hl]; exact fun h => (nomatch h)),
    if_neg (by rw [hl]; exact fun h => (nomatch h)), if_neg (by rw [hl]; exact fun h => (nomatch h))]

theorem line_start {c : Class} {name : Text} {tag : U32} (hp : '(' ∉ name) :
    Scan.line ⟨.elsewhere, c :: cs⟩ (unindented (fmt (fmt! "public {}(Path path = null) : this(path, {}) {{ }}" name, decimal tag))) =
      ⟨.elsewhere, { c with start := some tag.toNat } :: cs⟩ := by
  have hl : fmt (fmt! "public {}(Path path = null) : this(path, {}) {{ }}" name, decimal tag) =
      lit! "public " ++ ((name ++ (lit! "(Path path = null) : this(path, " ++ decimal tag)) ++ lit! ") { }") := by
    simp [fmt, Frag.text, List.append_assoc]
  have hu : unindented (fmt (fmt! "public {}(Path path = null) : this(path, {}) {{ }}" name, decimal tag)) =
      fmt (fmt! "public {}(Path path = null) : this(path, {}) {{ }}" name, decimal tag) := rfl
  rw [hu]
  generalize fmt (fmt! "public {}(Path path = null) : this(path, {}) {{ }}" name, decimal tag) = l at hl
  have hst : start? l = some tag.toNat := by
    unfold start?
    rw [hl, between_append]
    have e1 : upTo '(' (name ++ (lit! "(Path path = null) : this(path, " ++ decimal tag)) =
        (name, lit! "(Path path = null) : this(path, " ++ decimal tag) := upTo_append hp
    rw [Option.bind_some, e1, after_append, Option.bind_some, number_decimal]
  have hs : (lit! ") { }") <:+ l := ⟨lit! "public " ++ (name ++ (lit! "(Path path = null) : this(path, " ++ decimal tag)), by rw [hl]; simp⟩
  have ne : ∀ q : Text, (!q.isSuffixOf (lit! ") { }") && !(lit! ") { }").isSuffixOf q) = true → ¬ q <:+ l := by
    intro q hq hsuf
    simp only [Bool.and_eq_true, Bool.not_eq_true', ← Bool.not_eq_true, List.isSuffixOf_iff_suffix] at hq
    rcases List.suffix_or_suffix_of_suffix hsuf hs with h | h
    · exact hq.1 h
    · exact hq.2 h
  have nq : ∀ q : Text, (!q.isSuffixOf (lit! ") { }") && !(lit! ") { }").isSuffixOf q) = true → l ≠ q :=
    fun q hq he => ne q hq (he ▸ List.suffix_rfl)
  have bt : ∀ p q : Text, (!q.isSuffixOf (lit! ") { }") && !(lit! ") { }").isSuffixOf q) = true → between? p q l = none := fun p q hq => by
    cases h : between? p q l with
    | none => rfl
    | some u => exact absurd (between_suffix h) (ne q hq)
  have e1 : class? l = none := by
    unfold class?
    rw [bt _ _ rfl, bt _ _ rfl]; rfl
  have e2 : prop? l = none := by
    unfold prop?
    rw [bt _ _ rfl]; rfl
  have e3 : made? l = none := by
    unfold made?
    rw [bt _ _ rfl]; rfl
  unfold Scan.line
  simp only [e1, e2, e3, hst, Scan.change]
  rw [if_neg (nq _ rfl), if_neg (nq _ rfl), if_neg (nq _ rfl), if_neg (nq _ rfl)]

theorem wire_nl {f : FieldMeta} (h : NamedField f.ty) : '\n' ∉ wireStmt f := by
  unfold wireStmt fieldWireType
  split
  · decide
  · decide
  · decide
  · rename_i p hp
    rw [hp] at h
    exact NoBreaks.fmt (fs := [.lit (lit! "return "), .arg (fmt (fmt! "StateFactory.IsStateType(typeof({})) ? WireType.Sized : WireType.Varint" p.toList)), .lit (lit! ";")])
      ⟨rfl, NoBreaks.fmt ⟨rfl, name_nl h, rfl, trivial⟩, rfl, trivial⟩

theorem nested_nl {f : CSharpField} (h : FieldOk f) {t : Text} (ht : fieldNested f = some t) : '\n' ∉ lit! "return " ++ (t ++ lit! ";") := by
  have hm := name_nl h.name
  unfold fieldNested at ht
  split at ht
  · cases ht
  · cases ht
    exact NoBreaks.fmt (fs := [.lit (lit! "return "), .arg (fmt (fmt! "this.{}" f.name)), .lit (lit! ";")])
      ⟨rfl, NoBreaks.fmt ⟨rfl, hm, trivial⟩, rfl, trivial⟩
  · cases ht
    exact NoBreaks.fmt (fs := [.lit (lit! "return "), .arg (fmt (fmt! "this.{} as IState" f.name)), .lit (lit! ";")])
      ⟨rfl, NoBreaks.fmt ⟨rfl, hm, rfl, trivial⟩, rfl, trivial⟩

theorem fromMetas_data {fs : List FieldMeta} : ∀ {cfs : List CSharpField}, CSharpField.fromMetas cm fs = some cfs → cfs.map (·.data) = fs := by
  induction fs with
  | nil => intro cfs h; cases h; rfl
  | cons f fs ih =>
    intro cfs h
    simp only [CSharpField.fromMetas] at h
    split at h
    · rename_i cf cfs' hf hfs
      cases h
      unfold CSharpField.fromMeta at hf
      obtain ⟨t, ht, rfl⟩ := Option.map_eq_some_iff.1 hf
      rw [List.map_cons, ih hfs]
    · cases h

/-- A method of lines that do not matter: the switch tables of three methods, read off. -/
theorem out_class (hk : KeepsNames cm) {s : StructMeta} (hs : NamedStruct s) {fields : List CSharpField} (hd : fields.map (·.data) = s.fields)
    (hf : ∀ f ∈ fields, FieldOk f) (isVariant : Bool) (h : Out w ⟨.elsewhere, cs⟩) :
    Out (genClass cm s fields isVariant w) ⟨.elsewhere, classFor (if !isVariant then s.name.csharpName.toList ++ typeParams s.typeParams
      else s.name.csharpName.toList) fields :: cs⟩ := by
  unfold genClass
  extract_lets name varName typeName access spaced w1 w2 w3 w4 w5 w6 w7 w8 w9 w10 w11 w12 w13 w14 w15 w16 w17 w18 w19 w20 w21 w22 w23
    w24 w25 w26 w27 w28 w29 w30 w31 w32 w33 w34 w35 w36 w37 w38 w39 w40 w41 w42 w43 w44 w45 w46 w47 w48 w49 w50
  have nn : '\n' ∉ name := name_nl hs.name
  have nv : '\n' ∉ varName := name_nl (uncap_name hk hs.name)
  have nt : '\n' ∉ typeName := by
    show '\n' ∉ (if !isVariant then name ++ typeParams s.typeParams else name)
    split
    · exact unbr_nl ((isName_unbr hs.name).append (typeParams_unbr hs.typeParams))
    · exact nn
  have na : '\n' ∉ access := by
    show '\n' ∉ (if isVariant then _ else _)
    cases isVariant <;> decide
  let c0 : Class := ⟨typeName, false, [], [], none, ⟨[], none⟩, ⟨[], none⟩, ⟨[], none⟩, ⟨[], none⟩⟩
  have h1 : Out w1 ⟨.elsewhere, c0 :: cs⟩ :=
    (h.fmt (fs := fmt! "public sealed partial class {} : IState {{" typeName) (σ' := ⟨.elsewhere, c0 :: cs⟩) ⟨rfl, nt, rfl, trivial⟩
      (line_class (class_append typeName) ⟨_, rfl⟩)).indent
  have h2 : Out w2 ⟨.elsewhere, c0 :: cs⟩ := h1.lit rfl
  have h3 : Out w3 ⟨.elsewhere, c0 :: cs⟩ := by
    show Out (if fields.length > 1 then w2.newline else w2) _
    split
    · exact h2.newline
    · exact h2
  let c1 (done : List CSharpField) : Class := { c0 with props := done.map fun f => (f.typeName, f.name) }
  have h4 : Out w4 ⟨.elsewhere, c1 fields :: cs⟩ := Out.each (S := fun done => ⟨.elsewhere, c1 done :: cs⟩) h3 fun done f hm w h => by
    refine h.fmt (fs := fmt! "public {} {} {{ get; private set; }}" f.typeName, f.name)
      ⟨rfl, unbr_nl (hf f hm).type, rfl, name_nl (hf f hm).name, rfl, trivial⟩ ?_
    refine (line_prop (type := f.typeName) (name_no_space (hf f hm).name) (by simp [fmt, Frag.text, unindented])).trans ?_
    simp [c1]
  have h5 : Out w5 ⟨.elsewhere, c1 fields :: cs⟩ :=
    (h4.newline.idle (fs := fmt! "{} {}(Path path = null) {{" access, name) ⟨na, rfl, nn, rfl, trivial⟩).indent
  have h6 : Out w6 ⟨.elsewhere, c1 fields :: cs⟩ := h5.eachIdle fun p hm w h =>
    h.fmt (fs := fmt! "StateFactory.ValidateType(typeof({}));" p.toList) ⟨rfl, name_nl (hs.typeParams p hm), rfl, trivial⟩ rfl
  have h7 : Out w7 ⟨.elsewhere, c1 fields :: cs⟩ := h6.newlineIf spaced
  have h8 : Out w8 ⟨.elsewhere, c1 fields :: cs⟩ := h7.lit rfl
  have h9 : Out w9 ⟨.elsewhere, c1 fields :: cs⟩ := h8.newlineIf spaced
  let c2 (done : List CSharpField) : Class := { c1 fields with made := done.filterMap madeFor }
  have h10 : Out w10 ⟨.elsewhere, c2 fields :: cs⟩ := Out.each (S := fun done => ⟨.elsewhere, c2 done :: cs⟩) h9 fun done f hm w h => by
    have hok := hf f hm
    have d : '\n' ∉ decimal f.data.tag := decimal_no _ (by decide)
    have hm1 := name_nl hok.name
    have hm2 := unbr_nl hok.type
    unfold fieldInit
    cases ht : f.data.ty with
    | type t =>
      cases t with
      | primitive n wt =>
        simp only [writelnSome, c2, List.filterMap_append, List.filterMap_cons, madeFor, ht, List.filterMap_nil, List.append_nil]
        exact h
      | ref n as =>
        refine h.fmt ⟨rfl, hm1, rfl, NoBreaks.fmt ⟨rfl, hm2, rfl, d, rfl, trivial⟩, rfl, trivial⟩ ?_
        have hp : '(' ∉ lit! "new " ++ f.typeName := by
          intro hm
          rcases List.mem_append.1 hm with hm | hm
          · revert hm; decide
          · exact unbr_paren hok.type hm
        refine (line_made (prop := f.name) (how := lit! "new " ++ f.typeName) (tag := f.data.tag) (name_no_space hok.name) hp
          (by simp [fmt, Frag.text, unindented])).trans ?_
        simp [c2, madeFor, ht]
    | typeParam p =>
      have hpn := hok.param p ht
      refine h.fmt ⟨rfl, hm1, rfl, NoBreaks.fmt ⟨rfl, name_nl hpn, rfl, d, rfl, trivial⟩, rfl, trivial⟩ ?_
      have hp : '(' ∉ lit! "StateFactory.Construct<" ++ (p.toList ++ lit! ">") := by
        intro hm
        rcases List.mem_append.1 hm with hm | hm
        · revert hm; decide
        rcases List.mem_append.1 hm with hm | hm
        · exact unbr_paren (isName_unbr hpn) hm
        · revert hm; decide
      refine (line_made (prop := f.name) (how := lit! "StateFactory.Construct<" ++ (p.toList ++ lit! ">")) (tag := f.data.tag)
        (name_no_space hok.name) hp (by simp [fmt, Frag.text, unindented])).trans ?_
      simp [c2, madeFor, ht]
  have h11 : Out w11 ⟨.elsewhere, c2 fields :: cs⟩ := (h10.outdent.lit (σ' := ⟨.elsewhere, c2 fields :: cs⟩) rfl).newline
  have h12 : Out w12 ⟨.elsewhere, c2 fields :: cs⟩ := h11.eachIdle fun f hm w h =>
    h.idle (fs := fmt! "public static event EventHandler<FieldUpdateEventArgs<{}, {}>> On{}Update;" f.typeName, typeName, f.name)
      ⟨rfl, unbr_nl (hf f hm).type, rfl, nt, rfl, name_nl (hf f hm).name, rfl, trivial⟩
  have h13 : Out w13 ⟨.elsewhere, c2 fields :: cs⟩ := h12.newlineIf _
  have h14 : Out w14 ⟨.elsewhere, c2 fields :: cs⟩ := h13.eachIdle fun f hm w h => out_clearField (hf f hm) _ h
  have h15 : Out w15 ⟨.elsewhere, c2 fields :: cs⟩ := h14.newlineIf _
  have h16 : Out w16 ⟨.elsewhere, c2 fields :: cs⟩ := (out_clearAll hf h15).newline
  have h17 : Out w17 ⟨.elsewhere, c2 fields :: cs⟩ :=
    h16.idle (fs := fmt! "{} static {} Deserialize(IReader reader, Path path = null) {{" access, typeName) ⟨na, rfl, nt, rfl, trivial⟩
  have h18 : Out w18 ⟨.elsewhere, c2 fields :: cs⟩ := h17.indent.idle (fs := fmt! "var {} = new {}(path);" varName, typeName) ⟨rfl, nv, rfl, nt, rfl, trivial⟩
  have h19 : Out w19 ⟨.elsewhere, c2 fields :: cs⟩ := h18.idle (fs := fmt! "{}.Replace(reader, shouldNotify: false);" varName) ⟨nv, rfl, trivial⟩
  have h20 : Out w20 ⟨.elsewhere, c2 fields :: cs⟩ := h19.fmt (fs := fmt! "return {};" varName) ⟨rfl, nv, rfl, trivial⟩ rfl
  have h21 : Out w21 ⟨.elsewhere, c2 fields :: cs⟩ := (h20.outdent.lit (σ' := ⟨.elsewhere, c2 fields :: cs⟩) rfl).newline
  have h22 : Out w22 ⟨.head .wire, c2 fields :: cs⟩ := h21.lit rfl
  have h23 : Out w23 ⟨.inside .wire, c2 fields :: cs⟩ := (h22.indent.lit (σ' := ⟨.inside .wire, c2 fields :: cs⟩) rfl).indent
  have h24 := h23.cases (xs := s.fields) (g := fun w f => w.writeln (fmt (fmt! "case {}: return {};" decimal f.tag, fieldWireType f)))
    (e := fun f => some (f.tag.toNat, wireStmt f)) fun f hm => ⟨f.tag, rfl, wire_nl (hs.fields f hm).2, fun w => rfl⟩
  let c3 : Class := { c2 fields with wire := ⟨fields.filterMap fun f => some (f.data.tag.toNat, wireStmt f.data), none⟩ }
  have h24 : Out w24 ⟨.inside .wire, c3 :: cs⟩ := by
    have e : (c2 fields).change .wire (fun sw => ⟨sw.cases ++ s.fields.filterMap (fun f => some (f.tag.toNat, wireStmt f)), sw.dflt⟩) = c3 := by
      simp [Class.change, c3, c2, c1, c0, ← hd, List.map_map]
    rw [e] at h24
    exact h24
  let c4 : Class := { c3 with wire := ⟨fields.filterMap fun f => some (f.data.tag.toNat, wireStmt f.data), some (lit! "return null;")⟩ }
  have h25 : Out w25 ⟨.elsewhere, c4 :: cs⟩ := h24.lit rfl
  have h26 : Out w26 ⟨.elsewhere, c4 :: cs⟩ :=
    ((h25.outdent.lit (σ' := ⟨.elsewhere, c4 :: cs⟩) rfl).outdent.lit (σ' := ⟨.elsewhere, c4 :: cs⟩) rfl).newline
  have h27 : Out w27 ⟨.head .nested, c4 :: cs⟩ := h26.lit rfl
  have h28 : Out w28 ⟨.inside .nested, c4 :: cs⟩ := (h27.indent.lit (σ' := ⟨.inside .nested, c4 :: cs⟩) rfl).indent
  have h29 := h28.cases (xs := fields) (g := fun w f => writelnSome (fmt! "case {}: return " decimal f.data.tag) (fieldNested f) (fmt! ";") w)
    (e := nestedCase) fun f hm => by
      cases hn : fieldNested f with
      | none => simp only [nestedCase, hn, Option.map_none]; intro w; rfl
      | some t =>
        simp only [nestedCase, hn, Option.map_some]
        exact ⟨f.data.tag, rfl, nested_nl (hf f hm) hn, fun w => by simp [writelnSome, fmt, Frag.text]⟩
  let c5 : Class := { c4 with nested := ⟨fields.filterMap nestedCase, none⟩ }
  have h29 : Out w29 ⟨.inside .nested, c5 :: cs⟩ := h29
  let c6 : Class := { c5 with nested := ⟨fields.filterMap nestedCase, some (lit! "return null;")⟩ }
  have h30 : Out w30 ⟨.elsewhere, c6 :: cs⟩ := h29.lit rfl
  have h31 : Out w31 ⟨.elsewhere, c6 :: cs⟩ :=
    ((h30.outdent.lit (σ' := ⟨.elsewhere, c6 :: cs⟩) rfl).outdent.lit (σ' := ⟨.elsewhere, c6 :: cs⟩) rfl).newline
  have h32 : Out w32 ⟨.head .replace, c6 :: cs⟩ := h31.lit rfl
  have h33 : Out w33 ⟨.inside .replace, c6 :: cs⟩ := (h32.indent.lit (σ' := ⟨.inside .replace, c6 :: cs⟩) rfl).indent
  have h34 := h33.cases (xs := fields) (g := fun w f => w.writeln (fieldReplace f))
    (e := fun f => some (f.data.tag.toNat, replaceStmt f)) fun f hm =>
      ⟨f.data.tag, rfl, replace_nl (hf f hm), fun w => by rw [replace_split]⟩
  let c7 : Class := { c6 with replace := ⟨fields.filterMap fun f => some (f.data.tag.toNat, replaceStmt f), none⟩ }
  have h34 : Out w34 ⟨.inside .replace, c7 :: cs⟩ := h34
  let c8 : Class := classFor typeName fields
  have h35 : Out w35 ⟨.elsewhere, c8 :: cs⟩ := h34.lit rfl
  have h36 : Out w36 ⟨.elsewhere, c8 :: cs⟩ :=
    ((h35.outdent.lit (σ' := ⟨.elsewhere, c8 :: cs⟩) rfl).outdent.lit (σ' := ⟨.elsewhere, c8 :: cs⟩) rfl).newline
  have h37 : Out w37 ⟨.elsewhere, c8 :: cs⟩ := h36.lit rfl
  have h38 : Out w38 ⟨.elsewhere, c8 :: cs⟩ := h37.lit rfl
  have h39 : Out w39 ⟨.elsewhere, c8 :: cs⟩ := h38.lit rfl
  have h40 : Out w40 ⟨.elsewhere, c8 :: cs⟩ := h39.newline.lit rfl
  have h41 : Out w41 ⟨.elsewhere, c8 :: cs⟩ := h40.indent.lit rfl
  have h42 : Out w42 ⟨.elsewhere, c8 :: cs⟩ := (h41.lit (σ' := ⟨.elsewhere, c8 :: cs⟩) rfl).lit rfl
  have h43 : Out w43 ⟨.elsewhere, c8 :: cs⟩ :=
    h42.idle (fs := fmt! "EventHandler<FieldUpdateEventArgs<TValue, {}>> handler," typeName) ⟨rfl, nt, rfl, trivial⟩
  have h44 : Out w44 ⟨.elsewhere, c8 :: cs⟩ := h43.lit rfl
  have h45 : Out w45 ⟨.elsewhere, c8 :: cs⟩ := h44.outdent.lit rfl
  have h46 : Out w46 ⟨.elsewhere, c8 :: cs⟩ := h45.indent.lit rfl
  have h47 : Out w47 ⟨.elsewhere, c8 :: cs⟩ :=
    h46.indent.idle (fs := fmt! "var args = new FieldUpdateEventArgs<TValue, {}>(tag, newValue, oldValue, this);" typeName) ⟨rfl, nt, rfl, trivial⟩
  have h48 : Out w48 ⟨.elsewhere, c8 :: cs⟩ := h47.lit rfl
  have h49 : Out w49 ⟨.elsewhere, c8 :: cs⟩ := (h48.outdent.lit (σ' := ⟨.elsewhere, c8 :: cs⟩) rfl).newline
  have h50 : Out w50 ⟨.elsewhere, c8 :: cs⟩ := h49.lit rfl
  exact (h50.outdent.lit (σ' := ⟨.elsewhere, c8 :: cs⟩) rfl).outdent.lit rfl

/-! ## Enums -/

/-- A line of a declaration that does not matter, by its end. -/
theorem Out.idlePublic (h : Out w ⟨.elsewhere, cs⟩) {fs : List Frag} (hp : ∃ t, Gen.fmt fs = 'p' :: t) (hn : NoBreaks fs)
    (hi : ((endings.take 8).all fun q => !q.isSuffixOf (lastLit fs) && !(lastLit fs).isSuffixOf q) = true := by rfl) :
    Out (w.writeln (Gen.fmt fs)) ⟨.elsewhere, cs⟩ := by
  refine h.writeln hn.fmt ?_
  obtain ⟨t, ht⟩ := hp
  have hu : unindented (Gen.fmt fs) = Gen.fmt fs := by rw [ht]; rfl
  rw [hu]
  have key : ∀ q ∈ endings.take 8, ¬ q <:+ Gen.fmt fs := by
    intro q hq h1
    have h2 := List.all_eq_true.1 hi q hq
    simp only [Bool.and_eq_true, Bool.not_eq_true', ← Bool.not_eq_true, List.isSuffixOf_iff_suffix] at h2
    rcases List.suffix_or_suffix_of_suffix h1 (lastLit_suffix fs) with h | h
    · exact h2.1 h
    · exact h2.2 h
  have ne : ∀ q ∈ endings.take 8, Gen.fmt fs ≠ q := fun q hq he => key q hq (he ▸ List.suffix_rfl)
  have bt : ∀ p, ∀ q ∈ endings.take 8, between? p q (Gen.fmt fs) = none := fun p q hq => by
    cases h : between? p q (Gen.fmt fs) with
    | none => rfl
    | some u => exact absurd (between_suffix h) (key q hq)
  have e1 : class? (Gen.fmt fs) = none := by
    unfold class?
    rw [bt _ _ (by simp [endings]), bt _ _ (by simp [endings])]; rfl
  have e2 : prop? (Gen.fmt fs) = none := by
    unfold prop?
    rw [bt _ _ (by simp [endings])]; rfl
  have e3 : made? (Gen.fmt fs) = none := by rw [ht]; rfl
  have e4 : start? (Gen.fmt fs) = none := by
    unfold start?
    rw [bt _ _ (by simp [endings])]; rfl
  unfold Scan.line
  simp only [e1, e2, e3, e4]
  rw [if_neg (ne _ (by simp [endings])), if_neg (ne _ (by simp [endings])), if_neg (ne _ (by simp [endings])),
    if_neg (ne _ (by simp [endings]))]

/-- The statement of the constructor for a variant. -/
def newStmt (v : VariantMeta) : Text :=
  fmt (fmt! "this.Variant = new {1}(this.Path.GetNested({0})); break;" decimal v.tag, v.ty.name.csharpName.toList)

/-- The statement of `ReplaceAt` for a variant. -/
def readStmt (v : VariantMeta) : Text :=
  fmt (fmt! "this.UpdateAndNotify({0}, {1}.Deserialize(reader, this.Path.GetNested({0})), shouldNotify); break;"
    decimal v.tag, v.ty.name.csharpName.toList)

/-- What is read off the class of an enum. -/
def enumClassFor (name : Text) (dflt : VariantMeta) (vs : List VariantMeta) : Class :=
  ⟨name, true, [(lit! "UInt32", lit! "Tag"), (lit! "IState", lit! "Variant")], [], some dflt.tag.toNat,
    ⟨vs.filterMap fun v => some (v.tag.toNat, newStmt v), some (newStmt dflt)⟩,
    ⟨vs.filterMap fun v => some (v.tag.toNat, lit! "return WireType.Sized;"), some (lit! "return null;")⟩, ⟨[], none⟩,
    ⟨vs.filterMap fun v => some (v.tag.toNat, readStmt v), some (lit! "reader.SkipToEnd(); break;")⟩⟩

set_option maxHeartbeats 1000000 in
theorem out_enumClass (hk : KeepsNames cm) {e : EnumMeta} (hn : IsName e.name.csharpName.toList)
    (hp : ∀ p ∈ e.typeParams, IsName p.toList) (hv : ∀ v ∈ e.variants, NamedStruct v.ty) {dflt : VariantMeta} (hd : dflt ∈ e.variants)
    (h : Out w ⟨.elsewhere, cs⟩) : Out (genEnumClass cm e dflt w)
      ⟨.elsewhere, enumClassFor (e.name.csharpName.toList ++ typeParams e.typeParams) dflt e.variants :: cs⟩ := by
  unfold genEnumClass
  extract_lets name varName typeName camel plain spaced w1 w2 w3 w4 w5 w6 w7 w8 w9 w10 w11 w12 w13 w14 w15 w16 w17 w18 w19 w20 w21 w22
    w23 w24 w25 w26 w27 w28 w29 w30 w31 w32 w33 w34 w35 w36 w37 w38 w39 w40 w41 w42 w43 w44 w45 w46
  have nn : '\n' ∉ name := name_nl hn
  have nv : '\n' ∉ varName := name_nl (uncap_name hk hn)
  have nt : '\n' ∉ typeName := unbr_nl ((isName_unbr hn).append (typeParams_unbr hp))
  have nc : ∀ v ∈ e.variants, '\n' ∉ camel v := fun v hm => name_nl (camel_name hk (hv v hm).name)
  have np : ∀ v ∈ e.variants, '\n' ∉ plain v := fun v hm => name_nl (hv v hm).name
  have nd : ∀ n : U32, '\n' ∉ decimal n := fun n => decimal_no n (by decide)
  let c0 : Class := ⟨typeName, true, [], [], none, ⟨[], none⟩, ⟨[], none⟩, ⟨[], none⟩, ⟨[], none⟩⟩
  have h1 : Out w1 ⟨.elsewhere, c0 :: cs⟩ :=
    (h.fmt (fs := fmt! "public sealed partial class {} : IEnumState {{" typeName) (σ' := ⟨.elsewhere, c0 :: cs⟩) ⟨rfl, nt, rfl, trivial⟩
      (line_class (class_append_enum typeName) ⟨_, rfl⟩)).indent
  have h2 : Out w2 ⟨.elsewhere, c0 :: cs⟩ := h1.eachIdle fun v hm w h =>
    h.idlePublic (fs := fmt! "public const UInt32 {}Tag = {};" camel v, decimal v.tag) ⟨_, rfl⟩ ⟨rfl, nc v hm, rfl, nd _, rfl, trivial⟩
  have h3 : Out w3 ⟨.elsewhere, c0 :: cs⟩ := (h2.newline.lit (σ' := ⟨.elsewhere, c0 :: cs⟩) rfl).newline
  let c1 : Class := { c0 with props := [(lit! "UInt32", lit! "Tag")] }
  have h4 : Out w4 ⟨.elsewhere, c1 :: cs⟩ := h3.lit rfl
  let c2 : Class := { c0 with props := [(lit! "UInt32", lit! "Tag"), (lit! "IState", lit! "Variant")] }
  have h5 : Out w5 ⟨.elsewhere, c2 :: cs⟩ := (h4.lit (σ' := ⟨.elsewhere, c2 :: cs⟩) rfl).newline
  have h6 : Out w6 ⟨.elsewhere, c2 :: cs⟩ := h5.eachIdle fun v hm w h =>
    h.idle (fs := fmt! "public {0} {0}Variant {{ get {{ return this.Variant as {0}; }} }}" plain v)
      ⟨rfl, np v hm, rfl, np v hm, rfl, np v hm, rfl, trivial⟩
  have hb : '(' ∉ name := fun h => isName_unbr hn _ h (by decide)
  let c2' : Class := { c2 with start := some dflt.tag.toNat }
  have h7 : Out w7 ⟨.elsewhere, c2' :: cs⟩ :=
    (h6.newline.fmt (fs := fmt! "public {}(Path path = null) : this(path, {}) {{ }}" name, decimal dflt.tag)
      ⟨rfl, nn, rfl, nd _, rfl, trivial⟩ (line_start hb)).newline
  have h8 : Out w8 ⟨.elsewhere, c2' :: cs⟩ :=
    (h7.idle (fs := fmt! "public {}(Path path, UInt32 tag) {{" name) ⟨rfl, nn, rfl, trivial⟩).indent
  have h9 : Out w9 ⟨.elsewhere, c2' :: cs⟩ := h8.eachIdle fun p hm w h =>
    h.fmt (fs := fmt! "StateFactory.ValidateType(typeof({}));" p.toList) ⟨rfl, name_nl (hp p hm), rfl, trivial⟩ rfl
  have h10 : Out w10 ⟨.elsewhere, c2' :: cs⟩ := h9.newlineIf spaced
  have h11 : Out w11 ⟨.elsewhere, c2' :: cs⟩ := h10.lit rfl
  have h12 : Out w12 ⟨.elsewhere, c2' :: cs⟩ := h11.newlineIf spaced
  have h13 : Out w13 ⟨.inside .ctor, c2' :: cs⟩ :=
    ((h12.lit (σ' := ⟨.elsewhere, c2' :: cs⟩) rfl).newline.lit (σ' := ⟨.inside .ctor, c2' :: cs⟩) rfl).indent
  have h14 := h13.cases (xs := e.variants) (g := fun w v => w.writeln
      (fmt (fmt! "case {0}: this.Variant = new {1}(this.Path.GetNested({0})); break;" decimal v.tag, plain v)))
    (e := fun v => some (v.tag.toNat, newStmt v)) fun v hm =>
      ⟨v.tag, rfl, NoBreaks.fmt ⟨rfl, np v hm, rfl, nd _, rfl, trivial⟩, fun w => rfl⟩
  let c3 : Class := { c2' with ctor := ⟨e.variants.filterMap fun v => some (v.tag.toNat, newStmt v), none⟩ }
  have h14 : Out w14 ⟨.inside .ctor, c3 :: cs⟩ := h14
  let c4 : Class := { c2' with ctor := ⟨e.variants.filterMap fun v => some (v.tag.toNat, newStmt v), some (newStmt dflt)⟩ }
  have h15 : Out w15 ⟨.elsewhere, c4 :: cs⟩ := h14.fmt
    (fs := fmt! "default: this.Variant = new {}(this.Path.GetNested({})); break;" plain dflt, decimal dflt.tag)
    ⟨rfl, np _ hd, rfl, nd _, rfl, trivial⟩ rfl
  have h16 : Out w16 ⟨.elsewhere, c4 :: cs⟩ :=
    ((h15.outdent.lit (σ' := ⟨.elsewhere, c4 :: cs⟩) rfl).outdent.lit (σ' := ⟨.elsewhere, c4 :: cs⟩) rfl).newline
  have h17 : Out w17 ⟨.elsewhere, c4 :: cs⟩ := h16.eachIdle fun v hm w h =>
    h.idle (fs := fmt! "public static {0} New{1}(Path path = null) {{ return new {0}(path, {2}); }}" name, camel v, decimal v.tag)
      ⟨rfl, nn, rfl, nc v hm, rfl, nn, rfl, nd _, rfl, trivial⟩
  have h18 : Out w18 ⟨.elsewhere, c4 :: cs⟩ :=
    (h17.newline.idle (fs := fmt! "public static event EventHandler<VariantUpdateEventArgs<{}>> OnUpdate;" typeName)
      ⟨rfl, nt, rfl, trivial⟩).newline
  have h19 : Out w19 ⟨.elsewhere, c4 :: cs⟩ := h18.lit rfl
  have h20 : Out w20 ⟨.elsewhere, c4 :: cs⟩ :=
    ((h19.indent.lit (σ' := ⟨.elsewhere, c4 :: cs⟩) rfl).outdent.lit (σ' := ⟨.elsewhere, c4 :: cs⟩) rfl).newline
  have h21 : Out w21 ⟨.elsewhere, c4 :: cs⟩ :=
    h20.idle (fs := fmt! "public static {} Deserialize(IReader reader, Path path = null) {{" typeName) ⟨rfl, nt, rfl, trivial⟩
  have h22 : Out w22 ⟨.elsewhere, c4 :: cs⟩ := h21.indent.idle (fs := fmt! "var {} = new {}(path);" varName, typeName) ⟨rfl, nv, rfl, nt, rfl, trivial⟩
  have h23 : Out w23 ⟨.elsewhere, c4 :: cs⟩ := h22.idle (fs := fmt! "{}.Replace(reader, shouldNotify: false);" varName) ⟨nv, rfl, trivial⟩
  have h24 : Out w24 ⟨.elsewhere, c4 :: cs⟩ := h23.fmt (fs := fmt! "return {};" varName) ⟨rfl, nv, rfl, trivial⟩ rfl
  have h25 : Out w25 ⟨.elsewhere, c4 :: cs⟩ := (h24.outdent.lit (σ' := ⟨.elsewhere, c4 :: cs⟩) rfl).newline
  have h26 : Out w26 ⟨.head .wire, c4 :: cs⟩ := h25.lit rfl
  have h27 : Out w27 ⟨.inside .wire, c4 :: cs⟩ := (h26.indent.lit (σ' := ⟨.inside .wire, c4 :: cs⟩) rfl).indent
  have h28 := h27.cases (xs := e.variants) (g := fun w v => w.writeln (fmt (fmt! "case {}: return WireType.Sized;" decimal v.tag)))
    (e := fun v => some (v.tag.toNat, lit! "return WireType.Sized;")) fun v hm => ⟨v.tag, rfl, by decide, fun w => rfl⟩
  let c5 : Class := { c4 with wire := ⟨e.variants.filterMap fun v => some (v.tag.toNat, lit! "return WireType.Sized;"), none⟩ }
  have h28 : Out w28 ⟨.inside .wire, c5 :: cs⟩ := h28
  let c6 : Class := { c4 with wire :=
    ⟨e.variants.filterMap fun v => some (v.tag.toNat, lit! "return WireType.Sized;"), some (lit! "return null;")⟩ }
  have h29 : Out w29 ⟨.elsewhere, c6 :: cs⟩ := h28.lit rfl
  have h30 : Out w30 ⟨.elsewhere, c6 :: cs⟩ :=
    ((h29.outdent.lit (σ' := ⟨.elsewhere, c6 :: cs⟩) rfl).outdent.lit (σ' := ⟨.elsewhere, c6 :: cs⟩) rfl).newline
  have h31 : Out w31 ⟨.head .nested, c6 :: cs⟩ := h30.lit rfl
  have h32 : Out w32 ⟨.elsewhere, c6 :: cs⟩ :=
    ((h31.indent.lit (σ' := ⟨.elsewhere, c6 :: cs⟩) rfl).outdent.lit (σ' := ⟨.elsewhere, c6 :: cs⟩) rfl).newline
  have h33 : Out w33 ⟨.head .replace, c6 :: cs⟩ := h32.lit rfl
  have h34 : Out w34 ⟨.inside .replace, c6 :: cs⟩ := (h33.indent.lit (σ' := ⟨.inside .replace, c6 :: cs⟩) rfl).indent
  have h35 := h34.cases (xs := e.variants) (g := fun w v => w.writeln
      (fmt (fmt! "case {0}: this.UpdateAndNotify({0}, {1}.Deserialize(reader, this.Path.GetNested({0})), shouldNotify); break;"
        decimal v.tag, plain v)))
    (e := fun v => some (v.tag.toNat, readStmt v)) fun v hm =>
      ⟨v.tag, rfl, NoBreaks.fmt ⟨rfl, nd _, rfl, np v hm, rfl, nd _, rfl, trivial⟩, fun w => rfl⟩
  let c7 : Class := { c6 with replace := ⟨e.variants.filterMap fun v => some (v.tag.toNat, readStmt v), none⟩ }
  have h35 : Out w35 ⟨.inside .replace, c7 :: cs⟩ := h35
  let c8 : Class := enumClassFor typeName dflt e.variants
  have h36 : Out w36 ⟨.elsewhere, c8 :: cs⟩ := h35.lit rfl
  have h37 : Out w37 ⟨.elsewhere, c8 :: cs⟩ :=
    ((h36.outdent.lit (σ' := ⟨.elsewhere, c8 :: cs⟩) rfl).outdent.lit (σ' := ⟨.elsewhere, c8 :: cs⟩) rfl).newline
  have h38 : Out w38 ⟨.elsewhere, c8 :: cs⟩ := h37.lit rfl
  have h39 : Out w39 ⟨.elsewhere, c8 :: cs⟩ := h38.lit rfl
  have h40 : Out w40 ⟨.elsewhere, c8 :: cs⟩ := h39.lit rfl
  have h41 : Out w41 ⟨.elsewhere, c8 :: cs⟩ := h40.newline.lit rfl
  have h42 : Out w42 ⟨.elsewhere, c8 :: cs⟩ := h41.indent.lit rfl
  have h43 : Out w43 ⟨.elsewhere, c8 :: cs⟩ :=
    h42.indent.idle (fs := fmt! "var args = new VariantUpdateEventArgs<{}>(newTag, newVariant, this.Tag, this.Variant, this);" typeName)
      ⟨rfl, nt, rfl, trivial⟩
  have h44 : Out w44 ⟨.elsewhere, c8 :: cs⟩ := h43.idle (fs := fmt! "{}.OnUpdate?.Invoke(this, args);" typeName) ⟨nt, rfl, trivial⟩
  have h45 : Out w45 ⟨.elsewhere, c8 :: cs⟩ := (h44.outdent.lit (σ' := ⟨.elsewhere, c8 :: cs⟩) rfl).newline
  have h46 : Out w46 ⟨.elsewhere, c8 :: cs⟩ := (h45.lit (σ' := ⟨.elsewhere, c8 :: cs⟩) rfl).lit rfl
  exact h46.outdent.lit rfl

/-- The classes of variants: for each, its fields and what is read off. -/
inductive VariantClasses (cm : CaseMap) : List VariantMeta → List Class → Prop
  | nil : VariantClasses cm [] []
  | cons {v vs fields cs} : CSharpField.fromMetas cm v.ty.fields = some fields → VariantClasses cm vs cs →
      VariantClasses cm (v :: vs) (classFor v.ty.name.csharpName.toList fields :: cs)

theorem out_variants (hk : KeepsNames cm) {setting : CSharpSetting} : ∀ {vs : List VariantMeta} {w w' : Writer} {cs : List Class},
    (∀ v ∈ vs, NamedStruct v.ty) → Out w ⟨.elsewhere, cs⟩ → genVariants cm setting vs w = some w' →
    ∃ new, VariantClasses cm vs new ∧ Out w' ⟨.elsewhere, new.reverse ++ cs⟩
  | [], _, _, _, _, h, hw => by cases hw; exact ⟨[], .nil, h⟩
  | v :: vs, w, w', cs, hv, h, hw => by
    simp only [genVariants, genStruct, Bool.not_true, Bool.false_eq_true, if_false] at hw
    have hs := hv v List.mem_cons_self
    have h1 := (h.newline.fmt (fs := fmt! "// Variant ({}): {}" decimal v.tag, v.ty.name.csharpName.toList) (σ' := ⟨.elsewhere, cs⟩)
      ⟨rfl, decimal_no _ (by decide), rfl, name_nl hs.name, trivial⟩ rfl).newline
    cases hm : CSharpField.fromMetas cm v.ty.fields with
    | none => rw [hm] at hw; cases hw
    | some fields =>
      rw [hm] at hw
      obtain ⟨new, hn, ho⟩ := out_variants hk (fun v hm => hv v (List.mem_cons_of_mem _ hm))
        (out_class hk hs (fromMetas_data hm) (fromMetas_ok hk hs.fields hm) true h1) hw
      refine ⟨_, .cons hm hn, ?_⟩
      simpa using ho

/-- The classes of a generated file. -/
theorem classes_struct (hk : KeepsNames cm) {setting : CSharpSetting} (hn : IsName setting.namespace')
    (hu : ∀ u ∈ setting.usedNamespaces, IsName u) {s : StructMeta} (hs : NamedStruct s) {t : Text} (h : source cm setting (.struct s) = some t) :
    ∃ fields, CSharpField.fromMetas cm s.fields = some fields ∧
      classesOf t = [classFor (s.name.csharpName.toList ++ typeParams s.typeParams) fields] := by
  simp only [source, genStruct, Bool.not_false, if_true] at h
  cases hf : CSharpField.fromMetas cm s.fields with
  | none => rw [hf] at h; cases h
  | some fields =>
    rw [hf] at h
    cases h
    have h1 := out_opening hn hu (out_new 4)
    have h2 := out_class hk hs (fromMetas_data hf) (fromMetas_ok hk hs.fields hf) false h1
    have h3 := h2.outdent.lit (l := lit! "}") rfl
    exact ⟨fields, rfl, h3.classes⟩

theorem classes_enum (hk : KeepsNames cm) {setting : CSharpSetting} (hn : IsName setting.namespace')
    (hu : ∀ u ∈ setting.usedNamespaces, IsName u) {e : EnumMeta} (he : Named (.enum e)) {t : Text} (h : source cm setting (.enum e) = some t) :
    ∃ dflt cs, e.variants.find? (fun v => v.tag == 0) = some dflt ∧ VariantClasses cm e.variants cs ∧
      classesOf t = enumClassFor (e.name.csharpName.toList ++ typeParams e.typeParams) dflt e.variants :: cs := by
  simp only [source, genEnum] at h
  cases hd : e.variants.find? fun v => v.tag == 0 with
  | none => rw [hd] at h; cases h
  | some dflt =>
    rw [hd] at h
    simp only at h
    cases hv : genVariants cm setting e.variants (genEnumClass cm e dflt (genFileOpening setting (.new 4))) with
    | none => rw [hv] at h; cases h
    | some w =>
      rw [hv] at h
      cases h
      have h1 := out_opening hn hu (out_new 4)
      have h2 := out_enumClass hk he.1 he.2.1 he.2.2 (List.mem_of_find?_eq_some hd) h1
      obtain ⟨new, hnew, h3⟩ := out_variants hk he.2.2 h2 hv
      have h4 := (h3.outdent.lit (l := lit! "}") rfl).outdent.lit (l := lit! "}") rfl
      refine ⟨dflt, new, rfl, hnew, h4.classes.trans ?_⟩
      simp

end Steit.Gen
