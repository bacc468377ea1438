import Verif.Lemmas.Members

/-!
# What generated classes declare
-/

namespace Steit.Gen

open Steit.Gen.Spec Steit.Spec

set_option maxRecDepth 8192

variable {w : Writer} {n : Nat} {ds : List (Nat × Decl)} {cm : CaseMap}

theorem shown_opening {setting : CSharpSetting} (hn : IsName setting.namespace') (hu : ∀ u ∈ setting.usedNamespaces, IsName u)
    (h : Shown w n ds) : Shown (genFileOpening setting w) (n + 1) ds := by
  unfold genFileOpening
  extract_lets w1 used w2
  have h1 : Shown w1 n ds := (h.lit rfl).newline
  have h2 : Shown w2 n ds := h1.eachSkip fun u hmem w h => by
    have : '\n' ∉ u := by
      rcases List.mem_append.1 (sortTexts_mem hmem) with hm | hm
      · simp only [List.mem_cons, List.not_mem_nil, or_false] at hm
        rcases hm with rfl | rfl | rfl | rfl | rfl <;> decide
      · exact name_nl (hu u hm)
    exact h.skip (NoBreaks.fmt (fs := fmt! "using {};" u) ⟨rfl, this, rfl, trivial⟩) rfl
  exact (h2.newline.skip (NoBreaks.fmt (fs := fmt! "namespace {} {{" setting.namespace') ⟨rfl, name_nl hn, rfl, trivial⟩) rfl).indent

theorem isName_lit {t : Text} (h : IsName t) {a b : Text} (ha : IsName a) (hb : IsName b) : IsName (a ++ (t ++ b)) :=
  isName_append ha (isName_append h hb)

theorem clear_name {x : Text} (h : IsName x) : IsName (clearName x) := isName_lit h (by decide) (by decide)
theorem event_name {x : Text} (h : IsName x) : IsName (eventName x) := isName_lit h (by decide) (by decide)

theorem clear_bare {x : Text} (h : '<' ∉ x) : bare (clearName x) = clearName x :=
  bare_self (not_mem_append (by decide) (not_mem_append h (by decide)))

/-- The method that clears the handlers of an event. -/
def clearDecl (f : CSharpField) : Decl := ⟨lit! "public", .method, lit! "static void", clearName f.name⟩

theorem shown_clearField {f : CSharpField} (hf : FieldOk f) (hl : '<' ∉ f.name) (many : Bool) (h : Shown w n ds) :
    Shown (genClearField many w f) n (ds ++ [(n * 4, clearDecl f)]) := by
  have hu := name_nl hf.name
  unfold genClearField
  cases many with
  | true =>
    simp only [if_true, write_write, writeln_split, List.append_assoc]
    have := h.method (a := lit! "public") (type := lit! "static void") (name := clearName f.name)
      (r := lit! ") { " ++ (fmt (fmt! "On{0}Update = null;" f.name) ++ lit! " }"))
      (l := fmt (fmt! "public static void Clear{0}UpdateHandlers() {{ On{0}Update = null; }}" f.name)) (.inl rfl) (by decide) (by decide)
      (clear_name hf.name) (not_mem_append (by decide) (not_mem_append (NoBreaks.fmt ⟨rfl, hu, rfl, trivial⟩) (by decide)))
      (by simp [fmt, Frag.text, clearName]) (class_none (lastLit_suffix _) rfl)
    rw [clear_bare hl] at this
    simpa [fmt, Frag.text, clearDecl] using this
  | false =>
    simp only [Bool.false_eq_true, if_false, writeln_split]
    have h1 := (h.method (a := lit! "public") (type := lit! "static void") (name := clearName f.name)
      (r := lit! ") {") (l := fmt (fmt! "public static void Clear{0}UpdateHandlers() {{" f.name)) (.inl rfl) (by decide) (by decide)
      (clear_name hf.name) (by decide) (by simp [fmt, Frag.text, clearName]) (class_none (lastLit_suffix _) rfl)).indent
    rw [clear_bare hl] at h1
    have h2 := h1.skip (NoBreaks.fmt (fs := fmt! "On{0}Update = null;" f.name) ⟨rfl, hu, rfl, trivial⟩) rfl
    exact h2.outdent.lit rfl

/-- The method that clears the handlers of all events. -/
def clearAllDecl : Decl := ⟨lit! "public", .method, lit! "static void", lit! "ClearUpdateHandlers"⟩

theorem shown_clearAll {fields : List CSharpField} (hf : ∀ f ∈ fields, FieldOk f) (h : Shown w n ds) :
    Shown (genClearAll fields w) n (ds ++ [(n * 4, clearAllDecl)]) := by
  unfold genClearAll
  cases fields with
  | nil =>
    simp only [List.isEmpty_nil, Bool.not_true, Bool.false_eq_true, if_false, each, List.foldl_nil, write_write, writeln_split]
    exact h.declLit rfl
  | cons f fs =>
    simp only [List.isEmpty_cons, Bool.not_false, if_true]
    have h1 : Shown (w.writeln (lit! "public static void ClearUpdateHandlers() {")).indent (n + 1) (ds ++ [(n * 4, clearAllDecl)]) :=
      (h.declLit (d := clearAllDecl) rfl).indent
    have key : ∀ (w' : Writer), Shown w'.newline (n + 1) (ds ++ [(n * 4, clearAllDecl)]) →
        Shown (each (f :: fs) (fun w x => (w.newline.writeIndentation).write (fmt (fmt! "On{}Update = null;" x.name))) w').newline
          (n + 1) (ds ++ [(n * 4, clearAllDecl)]) := by
      intro w' hw'
      have e : (each (f :: fs) (fun w x => (w.newline.writeIndentation).write (fmt (fmt! "On{}Update = null;" x.name))) w').newline =
          each (f :: fs) (fun w x => w.writeln (fmt (fmt! "On{}Update = null;" x.name))) w'.newline :=
        clearAll_lines (fun x => fmt (fmt! "On{}Update = null;" x.name)) w'.newline (fmt (fmt! "On{}Update = null;" f.name)) fs
      rw [e]
      exact hw'.eachSkip fun x hx w h =>
        h.skip (NoBreaks.fmt (fs := fmt! "On{}Update = null;" x.name) ⟨rfl, name_nl (hf x hx).name, rfl, trivial⟩) rfl
    rw [each_newline_comm]
    exact (key (w.writeIndentation.write (lit! "public static void ClearUpdateHandlers() {")).indent h1).outdent.lit rfl

theorem fieldInit_nl {f : CSharpField} (h : FieldOk f) {t : Text} (ht : fieldInit f = some t) : '\n' ∉ t := by
  have d : '\n' ∉ decimal f.data.tag := decimal_no _ (by decide)
  unfold fieldInit at ht
  split at ht
  · cases ht
  · cases ht
    exact NoBreaks.fmt ⟨rfl, unbr_nl h.type, rfl, d, rfl, trivial⟩
  · rename_i p hp
    cases ht
    exact NoBreaks.fmt ⟨rfl, name_nl (h.param p hp), rfl, d, rfl, trivial⟩

/-- The end of the type of an event. -/
theorem before_event {t : Text} (h : (lit! ">>") <:+ t) : before? (lit! " =") t = none := by
  cases he : before? (lit! " =") t with
  | none => rfl
  | some u =>
    have h1 : (lit! " =") <:+ t := ⟨u, (before_some he).symm⟩
    rcases List.suffix_or_suffix_of_suffix h h1 with h | h <;> exact absurd h (by decide)

theorem shown_class (hk : KeepsNames cm) {s : StructMeta} (hs : NamedStruct s) (hb : '<' ∉ s.name.csharpName.toList)
    {fields : List CSharpField} (hd : fields.map (·.data) = s.fields)
    (hf : ∀ f ∈ fields, FieldOk f) (hl : ∀ f ∈ fields, '<' ∉ f.name) (isVariant : Bool) {cls : Text}
    (hcls : cls = if !isVariant then s.name.csharpName.toList ++ typeParams s.typeParams else s.name.csharpName.toList) (h : Shown w n ds) :
    Shown (genClass cm s fields isVariant w) n (ds ++ (n * 4, ⟨lit! "public", .cls, [], cls⟩) ::
      (structMembers (if isVariant then lit! "internal" else lit! "public") cls
        (fields.map fun f => (f.typeName, f.name))).map fun d => ((n + 1) * 4, d)) := by
  unfold genClass
  extract_lets name varName typeName access spaced w1 w2 w3 w4 w5 w6 w7 w8 w9 w10 w11 w12 w13 w14 w15 w16 w17 w18 w19 w20 w21 w22 w23
    w24 w25 w26 w27 w28 w29 w30 w31 w32 w33 w34 w35 w36 w37 w38 w39 w40 w41 w42 w43 w44 w45 w46 w47 w48 w49 w50
  have hname : IsName name := hs.name
  have nn : '\n' ∉ name := name_nl hname
  have vn : IsName varName := uncap_name hk hs.name
  have nv : '\n' ∉ varName := name_nl vn
  have ht : typeName = cls := hcls.symm
  clear_value typeName
  subst ht
  have hbare : bare typeName = name := by
    rw [hcls]
    unfold typeParams
    cases isVariant with
    | true => exact bare_self hb
    | false =>
      simp only [Bool.not_false, if_true]
      split
      · rw [List.append_nil]; exact bare_self hb
      · exact bare_append hb
  have tu : Unbr typeName := by
    rw [hcls]
    split
    · exact (isName_unbr hs.name).append (typeParams_unbr hs.typeParams)
    · exact isName_unbr hs.name
  have nt : '\n' ∉ typeName := unbr_nl tu
  have hacc : access = if isVariant then lit! "internal" else lit! "public" := rfl
  have ha : Access access := by
    show Access (if isVariant then _ else _)
    cases isVariant
    · exact .inl rfl
    · exact .inr (.inr rfl)
  rw [← hacc]
  clear_value name varName access
  let m := (n + 1) * 4
  let D1 := ds ++ [(n * 4, (⟨lit! "public", .cls, [], typeName⟩ : Decl))]
  have h1 : Shown w1 (n + 1) D1 := (h.cls (name := typeName) nt (.inl rfl)).indent
  let D2 := D1 ++ [(m, ⟨lit! "public", .property, lit! "Path", lit! "Path"⟩)]
  have h2 : Shown w2 (n + 1) D2 := h1.declLit rfl
  have h3 : Shown w3 (n + 1) D2 := by
    show Shown (if fields.length > 1 then w2.newline else w2) _ _
    split
    · exact h2.newline
    · exact h2
  let D4 := D2 ++ (fields.map fun f => (⟨lit! "public", .property, f.typeName, f.name⟩ : Decl)).map fun d => (m, d)
  have h4 : Shown w4 (n + 1) D4 := h3.eachDecl fun f hm w ds h =>
    h.property (r := lit! " get; private set; }") (.inl rfl) (unbr_open (hf f hm).type) (unbr_nl (hf f hm).type) (hf f hm).name (by decide)
      (by simp [fmt, Frag.text]) (class_none (lastLit_suffix _) rfl)
  let D5 := D4 ++ [(m, ⟨access, .ctor, [], name⟩)]
  have h5 : Shown w5 (n + 2) D5 :=
    (h4.newline.ctor (r := lit! "Path path = null) {") (l := fmt (fmt! "{} {}(Path path = null) {{" access, name)) ha hname (by decide) (by simp [fmt, Frag.text])
      (class_none (lastLit_suffix _) rfl)).indent
  have h6 : Shown w6 (n + 2) D5 := h5.eachSkip fun p hm w h =>
    h.skip (NoBreaks.fmt (fs := fmt! "StateFactory.ValidateType(typeof({}));" p.toList) ⟨rfl, name_nl (hs.typeParams p hm), rfl, trivial⟩) rfl
  have h7 : Shown w7 (n + 2) D5 := h6.newlineIf spaced
  have h8 : Shown w8 (n + 2) D5 := h7.lit rfl
  have h9 : Shown w9 (n + 2) D5 := h8.newlineIf spaced
  have h10 : Shown w10 (n + 2) D5 := h9.eachSkip fun f hm w h => by
    cases hi : fieldInit f with
    | none => exact h
    | some t => exact h.skip (NoBreaks.fmt ⟨rfl, name_nl (hf f hm).name, rfl, fieldInit_nl (hf f hm) hi, rfl, trivial⟩) rfl
  have h11 : Shown w11 (n + 1) D5 := (h10.outdent.lit rfl).newline
  let D12 := D5 ++ (fields.map fun f => (⟨lit! "public", .field, lit! "static event EventHandler<FieldUpdateEventArgs<" ++
    (f.typeName ++ (lit! ", " ++ (typeName ++ lit! ">>"))), eventName f.name⟩ : Decl)).map fun d => (m, d)
  have h12 : Shown w12 (n + 1) D12 := h11.eachDecl fun f hm w ds h =>
    h.field (.inl rfl)
      (Open.append (by decide) ((unbr_open (hf f hm).type).append (Open.append (by decide) ((unbr_open tu).append (by decide)))))
      (not_mem_append (by decide) (not_mem_append (unbr_nl (hf f hm).type) (not_mem_append (by decide) (not_mem_append nt (by decide)))))
      (before_event ⟨lit! "static event EventHandler<FieldUpdateEventArgs<" ++ (f.typeName ++ (lit! ", " ++ typeName)), by simp⟩)
      (event_name (hf f hm).name) (by simp [fmt, Frag.text, eventName]) (class_none (lastLit_suffix _) rfl)
  have h13 : Shown w13 (n + 1) D12 := h12.newlineIf _
  let D14 := D12 ++ (fields.map clearDecl).map fun d => (m, d)
  have h14 : Shown w14 (n + 1) D14 := h13.eachDecl fun f hm w ds h => shown_clearField (hf f hm) (hl f hm) _ h
  have h15 : Shown w15 (n + 1) D14 := h14.newlineIf _
  let D16 := D14 ++ [(m, clearAllDecl)]
  have h16 : Shown w16 (n + 1) D16 := (shown_clearAll hf h15).newline
  let D17 := D16 ++ [(m, ⟨access, .method, lit! "static " ++ typeName, lit! "Deserialize"⟩)]
  have h17 : Shown w17 (n + 1) D17 :=
    h16.method (name := lit! "Deserialize") (type := lit! "static " ++ typeName) (r := lit! "IReader reader, Path path = null) {")
      (l := fmt (fmt! "{} static {} Deserialize(IReader reader, Path path = null) {{" access, typeName)) ha
      (Open.append (by decide) (unbr_open tu)) (not_mem_append (by decide) nt) (by decide) (by decide) (by simp [fmt, Frag.text])
      (class_none (lastLit_suffix _) rfl)
  have h18 : Shown w18 (n + 2) D17 := h17.indent.skip
    (NoBreaks.fmt (fs := fmt! "var {} = new {}(path);" varName, typeName) ⟨rfl, nv, rfl, nt, rfl, trivial⟩) rfl
  have h19 : Shown w19 (n + 2) D17 := h18.skip
    (NoBreaks.fmt (fs := fmt! "{}.Replace(reader, shouldNotify: false);" varName) ⟨nv, rfl, trivial⟩)
    (decl_name (name_no_space vn) (.inl rfl))
  have h20 : Shown w20 (n + 2) D17 := h19.skip (NoBreaks.fmt (fs := fmt! "return {};" varName) ⟨rfl, nv, rfl, trivial⟩) rfl
  have h21 : Shown w21 (n + 1) D17 := (h20.outdent.lit rfl).newline
  let D22 := D17 ++ [(m, ⟨lit! "public", .method, lit! "WireType?", lit! "GetWireType"⟩)]
  have h22 : Shown w22 (n + 1) D22 := h21.declLit rfl
  have h23 : Shown w23 (n + 3) D22 := (h22.indent.lit rfl).indent
  have h24 : Shown w24 (n + 3) D22 := h23.eachSkip fun f hm w h =>
    h.skip (not_mem_append (by decide) (not_mem_append (decimal_no _ (by decide)) (not_mem_append (by decide)
      fun hm' => wire_nl (hs.fields f hm).2 (List.mem_append_right _ hm')))) rfl
  have h25 : Shown w25 (n + 3) D22 := h24.lit rfl
  have h26 : Shown w26 (n + 1) D22 := ((h25.outdent.lit rfl).outdent.lit rfl).newline
  let D27 := D22 ++ [(m, ⟨lit! "public", .method, lit! "IState", lit! "GetNested"⟩)]
  have h27 : Shown w27 (n + 1) D27 := h26.declLit rfl
  have h28 : Shown w28 (n + 3) D27 := (h27.indent.lit rfl).indent
  have h29 : Shown w29 (n + 3) D27 := h28.eachSkip fun f hm w h => by
    cases hi : fieldNested f with
    | none => exact h
    | some t =>
      have := nested_nl (hf f hm) hi
      refine h.skip (NoBreaks.fmt ⟨rfl, decimal_no _ (by decide), rfl, fun hm => this ?_, rfl, trivial⟩) rfl
      exact List.mem_append_right _ (List.mem_append_left _ hm)
  have h30 : Shown w30 (n + 3) D27 := h29.lit rfl
  have h31 : Shown w31 (n + 1) D27 := ((h30.outdent.lit rfl).outdent.lit rfl).newline
  let D32 := D27 ++ [(m, ⟨lit! "public", .method, lit! "void", lit! "ReplaceAt"⟩)]
  have h32 : Shown w32 (n + 1) D32 := h31.declLit rfl
  have h33 : Shown w33 (n + 3) D32 := (h32.indent.lit rfl).indent
  have h34 : Shown w34 (n + 3) D32 := h33.eachSkip fun f hm w h => by
    show Shown (w.writeln (fieldReplace f)) _ _
    rw [replace_split]
    exact h.skip (not_mem_append (by decide) (not_mem_append (decimal_no _ (by decide)) (not_mem_append (by decide) (replace_nl (hf f hm))))) rfl
  have h35 : Shown w35 (n + 3) D32 := h34.lit rfl
  have h36 : Shown w36 (n + 1) D32 := ((h35.outdent.lit rfl).outdent.lit rfl).newline
  let D37 := D32 ++ [(m, ⟨lit! "public", .method, lit! "void", lit! "ReplayListPush"⟩)]
  have h37 : Shown w37 (n + 1) D37 := h36.declLit rfl
  let D38 := D37 ++ [(m, ⟨lit! "public", .method, lit! "void", lit! "ReplayListPop"⟩)]
  have h38 : Shown w38 (n + 1) D38 := h37.declLit rfl
  let D39 := D38 ++ [(m, ⟨lit! "public", .method, lit! "void", lit! "ReplayMapRemove"⟩)]
  have h39 : Shown w39 (n + 1) D39 := h38.declLit rfl
  let D40 := D39 ++ [(m, ⟨lit! "private", .method, lit! "TValue", lit! "MaybeNotify"⟩)]
  have h40 : Shown w40 (n + 1) D40 := h39.newline.declLit rfl
  have h41 : Shown w41 (n + 2) D40 := h40.indent.lit rfl
  have h42 : Shown w42 (n + 2) D40 := (h41.lit rfl).lit rfl
  have h43 : Shown w43 (n + 2) D40 := h42.skip
    (NoBreaks.fmt (fs := fmt! "EventHandler<FieldUpdateEventArgs<TValue, {}>> handler," typeName) ⟨rfl, nt, rfl, trivial⟩) rfl
  have h44 : Shown w44 (n + 2) D40 := h43.lit rfl
  have h45 : Shown w45 (n + 1) D40 := h44.outdent.lit rfl
  have h46 : Shown w46 (n + 2) D40 := h45.indent.lit rfl
  have h47 : Shown w47 (n + 3) D40 := h46.indent.skip (NoBreaks.fmt
    (fs := fmt! "var args = new FieldUpdateEventArgs<TValue, {}>(tag, newValue, oldValue, this);" typeName) ⟨rfl, nt, rfl, trivial⟩) rfl
  have h48 : Shown w48 (n + 3) D40 := h47.lit rfl
  have h49 : Shown w49 (n + 2) D40 := (h48.outdent.lit rfl).newline
  have h50 : Shown w50 (n + 2) D40 := h49.lit rfl
  have h51 := (h50.outdent.lit (l := lit! "}") rfl).outdent.lit (l := lit! "}") rfl
  have e : D40 = ds ++ (n * 4, ⟨lit! "public", .cls, [], typeName⟩) ::
      (structMembers access typeName (fields.map fun f => (f.typeName, f.name))).map fun d => ((n + 1) * 4, d) := by
    simp only [D40, D39, D38, D37, D32, D27, D22, D17, D16, D14, D12, D5, D4, D2, D1, structMembers, commonMethods, hbare, List.map_append,
      List.map_map, List.append_assoc, List.map_cons, List.map_nil, List.cons_append, List.nil_append, clearAllDecl, m]
    rfl
  rw [← e]
  exact h51

/-! ## Enums -/

set_option maxHeartbeats 1000000 in
theorem shown_enumClass (hk : KeepsNames cm) {e : EnumMeta} (hn : IsName e.name.csharpName.toList) (hb : '<' ∉ e.name.csharpName.toList)
    (hp : ∀ p ∈ e.typeParams, IsName p.toList) (hv : ∀ v ∈ e.variants, NamedStruct v.ty)
    (hl : ∀ v ∈ e.variants, '<' ∉ (variantName cm v).2) {dflt : VariantMeta} (hd : dflt ∈ e.variants) {cls : Text}
    (hcls : cls = e.name.csharpName.toList ++ typeParams e.typeParams) (h : Shown w n ds) : Shown (genEnumClass cm e dflt w) (n + 1)
      (ds ++ (n * 4, ⟨lit! "public", .cls, [], cls⟩) ::
        (enumMembers cls (e.variants.map (variantName cm))).map fun d => ((n + 1) * 4, d)) := by
  unfold genEnumClass
  extract_lets name varName typeName camel plain spaced w1 w2 w3 w4 w5 w6 w7 w8 w9 w10 w11 w12 w13 w14 w15 w16 w17 w18 w19 w20 w21 w22
    w23 w24 w25 w26 w27 w28 w29 w30 w31 w32 w33 w34 w35 w36 w37 w38 w39 w40 w41 w42 w43 w44 w45 w46
  have nn : '\n' ∉ name := name_nl hn
  have hname : IsName name := hn
  have vn : IsName varName := uncap_name hk hn
  have nv : '\n' ∉ varName := name_nl vn
  have ht : typeName = cls := hcls.symm
  clear_value typeName
  subst ht
  have tu : Unbr typeName := by
    rw [hcls]
    exact (isName_unbr hn).append (typeParams_unbr hp)
  have nt : '\n' ∉ typeName := unbr_nl tu
  have hbare : bare typeName = name := by
    rw [hcls]
    unfold typeParams
    split
    · rw [List.append_nil]; exact bare_self hb
    · exact bare_append hb
  have hidle : ∀ r, decl? (unindented (typeName ++ '.' :: r)) = none := by
    intro r
    rw [hcls]
    unfold typeParams
    split
    · rw [List.append_nil]; exact decl_name (name_no_space hn) (.inl rfl)
    · simp only [fmt, Frag.text, List.append_assoc]
      exact decl_name (name_no_space hn) (.inr rfl)
  have cn : ∀ v ∈ e.variants, IsName (camel v) := fun v hm => camel_name hk (hv v hm).name
  have pn : ∀ v ∈ e.variants, IsName (plain v) := fun v hm => (hv v hm).name
  have nc : ∀ v ∈ e.variants, '\n' ∉ camel v := fun v hm => name_nl (cn v hm)
  have np : ∀ v ∈ e.variants, '\n' ∉ plain v := fun v hm => name_nl (pn v hm)
  have nd : ∀ n : U32, '\n' ∉ decimal n := fun n => decimal_no n (by decide)
  have hl : ∀ v ∈ e.variants, '<' ∉ camel v := hl
  have hvar : e.variants.map (variantName cm) = e.variants.map fun v => (plain v, camel v) := rfl
  rw [hvar]
  clear_value name varName camel plain
  let m := (n + 1) * 4
  let D1 := ds ++ [(n * 4, (⟨lit! "public", .cls, [], typeName⟩ : Decl))]
  have h1 : Shown w1 (n + 1) D1 := (h.cls (name := typeName) nt (.inr rfl)).indent
  let D2 := D1 ++ (e.variants.map fun v => (⟨lit! "public", .field, lit! "const UInt32", camel v ++ lit! "Tag"⟩ : Decl)).map fun d => (m, d)
  have h2 : Shown w2 (n + 1) D2 := h1.eachDecl fun v hm w ds h =>
    h.const (value := decimal v.tag) (.inl rfl) (by decide) (by decide) (isName_append (cn v hm) (by decide)) (decimal_name _)
      (by simp [fmt, Frag.text]) (class_none (lastLit_suffix _) rfl)
  let D3 := D2 ++ [(m, ⟨lit! "public", .property, lit! "Path", lit! "Path"⟩)]
  have h3 : Shown w3 (n + 1) D3 :=
    (h2.newline.declLit (d := ⟨lit! "public", .property, lit! "Path", lit! "Path"⟩) rfl).newline
  let D4 := D3 ++ [(m, ⟨lit! "public", .property, lit! "UInt32", lit! "Tag"⟩)]
  have h4 : Shown w4 (n + 1) D4 := h3.declLit rfl
  let D5 := D4 ++ [(m, ⟨lit! "public", .property, lit! "IState", lit! "Variant"⟩)]
  have h5 : Shown w5 (n + 1) D5 := (h4.declLit (d := ⟨lit! "public", .property, lit! "IState", lit! "Variant"⟩) rfl).newline
  let D6 := D5 ++ (e.variants.map fun v => (⟨lit! "public", .property, plain v, plain v ++ lit! "Variant"⟩ : Decl)).map fun d => (m, d)
  have h6 : Shown w6 (n + 1) D6 := h5.eachDecl fun v hm w ds h =>
    h.property (type := plain v) (name := plain v ++ lit! "Variant") (r := lit! " get { return this.Variant as " ++ (plain v ++ lit! "; } }"))
      (.inl rfl) (name_open (pn v hm)) (np v hm) (isName_append (pn v hm) (by decide))
      (not_mem_append (by decide) (not_mem_append (np v hm) (by decide)))
      (by simp [fmt, Frag.text]) (class_none (lastLit_suffix _) rfl)
  let D7 := D6 ++ [(m, ⟨lit! "public", .ctor, [], name⟩)]
  have h7 : Shown w7 (n + 1) D7 :=
    (h6.newline.ctor (r := lit! "Path path = null) : this(path, " ++ (decimal dflt.tag ++ lit! ") { }"))
      (l := fmt (fmt! "public {}(Path path = null) : this(path, {}) {{ }}" name, decimal dflt.tag)) (.inl rfl) hname
      (not_mem_append (by decide) (not_mem_append (nd _) (by decide))) (by simp [fmt, Frag.text])
      (class_none (lastLit_suffix _) rfl)).newline
  let D8 := D7 ++ [(m, ⟨lit! "public", .ctor, [], name⟩)]
  have h8 : Shown w8 (n + 2) D8 :=
    (h7.ctor (r := lit! "Path path, UInt32 tag) {") (l := fmt (fmt! "public {}(Path path, UInt32 tag) {{" name)) (.inl rfl) hname (by decide)
      (by simp [fmt, Frag.text]) (class_none (lastLit_suffix _) rfl)).indent
  have h9 : Shown w9 (n + 2) D8 := h8.eachSkip fun p hm w h =>
    h.skip (NoBreaks.fmt (fs := fmt! "StateFactory.ValidateType(typeof({}));" p.toList) ⟨rfl, name_nl (hp p hm), rfl, trivial⟩) rfl
  have h10 : Shown w10 (n + 2) D8 := h9.newlineIf spaced
  have h11 : Shown w11 (n + 2) D8 := h10.lit rfl
  have h12 : Shown w12 (n + 2) D8 := h11.newlineIf spaced
  have h13 : Shown w13 (n + 3) D8 := ((h12.lit rfl).newline.lit rfl).indent
  have h14 : Shown w14 (n + 3) D8 := h13.eachSkip fun v hm w h => h.skip (NoBreaks.fmt
    (fs := fmt! "case {0}: this.Variant = new {1}(this.Path.GetNested({0})); break;" decimal v.tag, plain v)
    ⟨rfl, nd _, rfl, np v hm, rfl, nd _, rfl, trivial⟩) rfl
  have h15 : Shown w15 (n + 3) D8 := h14.skip (NoBreaks.fmt
    (fs := fmt! "default: this.Variant = new {}(this.Path.GetNested({})); break;" plain dflt, decimal dflt.tag)
    ⟨rfl, np _ hd, rfl, nd _, rfl, trivial⟩) rfl
  have h16 : Shown w16 (n + 1) D8 := ((h15.outdent.lit rfl).outdent.lit rfl).newline
  let D17 := D8 ++ (e.variants.map fun v => (⟨lit! "public", .method, lit! "static " ++ name, lit! "New" ++ camel v⟩ : Decl)).map fun d => (m, d)
  have h17 : Shown w17 (n + 1) D17 := h16.eachDecl fun v hm w ds h => by
    have := h.method (a := lit! "public") (type := lit! "static " ++ name) (name := lit! "New" ++ camel v)
      (r := lit! "Path path = null) { return new " ++ (name ++ (lit! "(path, " ++ (decimal v.tag ++ lit! "); }"))))
      (l := fmt (fmt! "public static {0} New{1}(Path path = null) {{ return new {0}(path, {2}); }}" name, camel v, decimal v.tag))
      (.inl rfl) (Open.append (by decide) (name_open hname)) (not_mem_append (by decide) nn) (isName_append (by decide) (cn v hm))
      (not_mem_append (by decide) (not_mem_append nn (not_mem_append (by decide) (not_mem_append (nd _) (by decide)))))
      (by simp [fmt, Frag.text]) (class_none (lastLit_suffix _) rfl)
    rw [bare_self (not_mem_append (by decide) (hl v hm))] at this
    exact this
  let D18 := D17 ++ [(m, ⟨lit! "public", .field, lit! "static event EventHandler<VariantUpdateEventArgs<" ++ (typeName ++ lit! ">>"),
    lit! "OnUpdate"⟩)]
  have h18 : Shown w18 (n + 1) D18 := (h17.newline.field (a := lit! "public")
    (type := lit! "static event EventHandler<VariantUpdateEventArgs<" ++ (typeName ++ lit! ">>")) (name := lit! "OnUpdate")
    (l := fmt (fmt! "public static event EventHandler<VariantUpdateEventArgs<{}>> OnUpdate;" typeName)) (.inl rfl)
    (Open.append (by decide) ((unbr_open tu).append (by decide))) (not_mem_append (by decide) (not_mem_append nt (by decide)))
    (before_event ⟨lit! "static event EventHandler<VariantUpdateEventArgs<" ++ typeName, by simp⟩) (by decide)
    (by simp [fmt, Frag.text]) (class_none (lastLit_suffix _) rfl)).newline
  let D19 := D18 ++ [(m, clearAllDecl)]
  have h19 : Shown w19 (n + 1) D19 := h18.declLit rfl
  have h20 : Shown w20 (n + 1) D19 := ((h19.indent.lit rfl).outdent.lit rfl).newline
  let D21 := D19 ++ [(m, ⟨lit! "public", .method, lit! "static " ++ typeName, lit! "Deserialize"⟩)]
  have h21 : Shown w21 (n + 1) D21 :=
    h20.method (a := lit! "public") (name := lit! "Deserialize") (type := lit! "static " ++ typeName)
      (r := lit! "IReader reader, Path path = null) {")
      (l := fmt (fmt! "public static {} Deserialize(IReader reader, Path path = null) {{" typeName)) (.inl rfl)
      (Open.append (by decide) (unbr_open tu)) (not_mem_append (by decide) nt) (by decide) (by decide) (by simp [fmt, Frag.text])
      (class_none (lastLit_suffix _) rfl)
  have h22 : Shown w22 (n + 2) D21 := h21.indent.skip
    (NoBreaks.fmt (fs := fmt! "var {} = new {}(path);" varName, typeName) ⟨rfl, nv, rfl, nt, rfl, trivial⟩) rfl
  have h23 : Shown w23 (n + 2) D21 := h22.skip
    (NoBreaks.fmt (fs := fmt! "{}.Replace(reader, shouldNotify: false);" varName) ⟨nv, rfl, trivial⟩)
    (decl_name (name_no_space vn) (.inl rfl))
  have h24 : Shown w24 (n + 2) D21 := h23.skip (NoBreaks.fmt (fs := fmt! "return {};" varName) ⟨rfl, nv, rfl, trivial⟩) rfl
  have h25 : Shown w25 (n + 1) D21 := (h24.outdent.lit rfl).newline
  let D26 := D21 ++ [(m, ⟨lit! "public", .method, lit! "WireType?", lit! "GetWireType"⟩)]
  have h26 : Shown w26 (n + 1) D26 := h25.declLit rfl
  have h27 : Shown w27 (n + 3) D26 := (h26.indent.lit rfl).indent
  have h28 : Shown w28 (n + 3) D26 := h27.eachSkip fun v hm w h => h.skip (NoBreaks.fmt
    (fs := fmt! "case {}: return WireType.Sized;" decimal v.tag) ⟨rfl, nd _, rfl, trivial⟩) rfl
  have h29 : Shown w29 (n + 3) D26 := h28.lit rfl
  have h30 : Shown w30 (n + 1) D26 := ((h29.outdent.lit rfl).outdent.lit rfl).newline
  let D31 := D26 ++ [(m, ⟨lit! "public", .method, lit! "IState", lit! "GetNested"⟩)]
  have h31 : Shown w31 (n + 1) D31 := h30.declLit rfl
  have h32 : Shown w32 (n + 1) D31 := ((h31.indent.lit rfl).outdent.lit rfl).newline
  let D33 := D31 ++ [(m, ⟨lit! "public", .method, lit! "void", lit! "ReplaceAt"⟩)]
  have h33 : Shown w33 (n + 1) D33 := h32.declLit rfl
  have h34 : Shown w34 (n + 3) D33 := (h33.indent.lit rfl).indent
  have h35 : Shown w35 (n + 3) D33 := h34.eachSkip fun v hm w h => h.skip (NoBreaks.fmt
    (fs := fmt! "case {0}: this.UpdateAndNotify({0}, {1}.Deserialize(reader, this.Path.GetNested({0})), shouldNotify); break;"
        decimal v.tag, plain v) ⟨rfl, nd _, rfl, nd _, rfl, np v hm, rfl, nd _, rfl, trivial⟩) rfl
  have h36 : Shown w36 (n + 3) D33 := h35.lit rfl
  have h37 : Shown w37 (n + 1) D33 := ((h36.outdent.lit rfl).outdent.lit rfl).newline
  let D38 := D33 ++ [(m, ⟨lit! "public", .method, lit! "void", lit! "ReplayListPush"⟩)]
  have h38 : Shown w38 (n + 1) D38 := h37.declLit rfl
  let D39 := D38 ++ [(m, ⟨lit! "public", .method, lit! "void", lit! "ReplayListPop"⟩)]
  have h39 : Shown w39 (n + 1) D39 := h38.declLit rfl
  let D40 := D39 ++ [(m, ⟨lit! "public", .method, lit! "void", lit! "ReplayMapRemove"⟩)]
  have h40 : Shown w40 (n + 1) D40 := h39.declLit rfl
  let D41 := D40 ++ [(m, ⟨lit! "private", .method, lit! "void", lit! "UpdateAndNotify"⟩)]
  have h41 : Shown w41 (n + 1) D41 := h40.newline.declLit rfl
  have h42 : Shown w42 (n + 2) D41 := h41.indent.lit rfl
  have h43 : Shown w43 (n + 3) D41 := h42.indent.skip (NoBreaks.fmt
    (fs := fmt! "var args = new VariantUpdateEventArgs<{}>(newTag, newVariant, this.Tag, this.Variant, this);" typeName)
      ⟨rfl, nt, rfl, trivial⟩) rfl
  have h44 : Shown w44 (n + 3) D41 := h43.skip
    (NoBreaks.fmt (fs := fmt! "{}.OnUpdate?.Invoke(this, args);" typeName) ⟨nt, rfl, trivial⟩) (hidle _)
  have h45 : Shown w45 (n + 2) D41 := (h44.outdent.lit rfl).newline
  have h46 : Shown w46 (n + 2) D41 := (h45.lit rfl).lit rfl
  have h47 := h46.outdent.lit (l := lit! "}") rfl
  have e : D41 = ds ++ (n * 4, ⟨lit! "public", .cls, [], typeName⟩) ::
      (enumMembers typeName (e.variants.map fun v => (plain v, camel v))).map fun d => ((n + 1) * 4, d) := by
    simp only [D41, D40, D39, D38, D33, D31, D26, D21, D19, D18, D17, D8, D7, D6, D5, D4, D3, D2, D1, enumMembers, commonMethods, hbare,
      List.map_append, List.map_map, List.append_assoc, List.map_cons, List.map_nil, List.cons_append, List.nil_append, clearAllDecl, m]
    rfl
  rw [← e]
  exact h47

theorem fromMetas_names {fs : List FieldMeta} : ∀ {cfs : List CSharpField}, CSharpField.fromMetas cm fs = some cfs →
    cfs.map (·.name) = fs.map (propName cm) := by
  induction fs with
  | nil => intro cfs h; cases h; rfl
  | cons f fs ih =>
    intro cfs h
    simp only [CSharpField.fromMetas] at h
    split at h
    · rename_i cf cfs' hf hfs
      cases h
      unfold CSharpField.fromMeta at hf
      obtain ⟨t, ht, rfl⟩ := Option.map_eq_some_iff.1 hf
      rw [List.map_cons, ih hfs]
      rfl
    · cases h

theorem fromMetas_all {fs : List FieldMeta} {cfs : List CSharpField} (h : CSharpField.fromMetas cm fs = some cfs) {P : Text → Prop}
    (hp : ∀ f ∈ fs, P (propName cm f)) : ∀ c ∈ cfs, P c.name := fun c hc => by
  have : c.name ∈ fs.map (propName cm) := fromMetas_names h ▸ List.mem_map_of_mem hc
  obtain ⟨f, hf, e⟩ := List.mem_map.1 this
  rw [← e]
  exact hp f hf

theorem shown_variants (hk : KeepsNames cm) {setting : CSharpSetting} : ∀ {vs : List VariantMeta} {w w' : Writer} {ds : List (Nat × Decl)},
    (∀ v ∈ vs, NamedStruct v.ty) → (∀ v ∈ vs, '<' ∉ v.ty.name.csharpName.toList) →
    (∀ v ∈ vs, ∀ f ∈ v.ty.fields, '<' ∉ propName cm f) → Shown w 2 ds →
    genVariants cm setting vs w = some w' → ∃ new, VariantClasses cm vs new ∧ Shown w' 2 (ds ++ (List.zipWith variantOutline vs new).flatten)
  | [], _, _, _, _, _, _, h, hw => by cases hw; exact ⟨[], .nil, by simpa using h⟩
  | v :: vs, w, w', cs, hv, hb, hl, h, hw => by
    simp only [genVariants, genStruct, Bool.not_true, Bool.false_eq_true, if_false] at hw
    have hs := hv v List.mem_cons_self
    have h1 := (h.newline.skip (NoBreaks.fmt (fs := fmt! "// Variant ({}): {}" decimal v.tag, v.ty.name.csharpName.toList)
      ⟨rfl, decimal_no _ (by decide), rfl, name_nl hs.name, trivial⟩) rfl).newline
    cases hm : CSharpField.fromMetas cm v.ty.fields with
    | none => rw [hm] at hw; cases hw
    | some fields =>
      rw [hm] at hw
      have hfl : ∀ f ∈ fields, '<' ∉ f.name := fromMetas_all (P := fun t => '<' ∉ t) hm (hl v List.mem_cons_self)
      obtain ⟨new, hn, ho⟩ := shown_variants hk (fun v hm => hv v (List.mem_cons_of_mem _ hm)) (fun v hm => hb v (List.mem_cons_of_mem _ hm))
        (fun v hm => hl v (List.mem_cons_of_mem _ hm))
        (shown_class hk hs (hb v List.mem_cons_self) (fromMetas_data hm) (fromMetas_ok hk hs.fields hm) hfl true rfl h1) hw
      refine ⟨_, .cons hm hn, ?_⟩
      simpa [variantOutline, classFor] using ho

theorem VariantClasses.unique {vs : List VariantMeta} {cs cs' : List Class} (h : VariantClasses cm vs cs) (h' : VariantClasses cm vs cs') :
    cs = cs' := by
  induction h generalizing cs' with
  | nil => cases h'; rfl
  | cons hm _ ih =>
    cases h' with
    | cons hm' h' =>
      rw [hm] at hm'
      cases hm'
      rw [ih h']

theorem VariantClasses.props {vs : List VariantMeta} {cs : List Class} (h : VariantClasses cm vs cs) :
    cs.map (fun c => c.props.map Prod.snd) = vs.map fun v => v.ty.fields.map (propName cm) := by
  induction h with
  | nil => rfl
  | cons hm _ ih =>
    rw [List.map_cons, List.map_cons, ih, ← fromMetas_names hm]
    simp [classFor]

/-- What the file of a struct declares. -/
theorem outline_struct (hk : KeepsNames cm) {setting : CSharpSetting} (hn : IsName setting.namespace')
    (hu : ∀ u ∈ setting.usedNamespaces, IsName u) {s : StructMeta} (hs : NamedStruct s) (hb : '<' ∉ s.name.csharpName.toList)
    (hl : ∀ f ∈ s.fields, '<' ∉ propName cm f) {t : Text} (h : source cm setting (.struct s) = some t) :
    ∃ c, classesOf t = [c] ∧ c.props.map Prod.snd = s.fields.map (propName cm) ∧
      outline t = (4, ⟨lit! "public", .cls, [], s.name.csharpName.toList ++ typeParams s.typeParams⟩) ::
        (structMembers (lit! "public") (s.name.csharpName.toList ++ typeParams s.typeParams) c.props).map fun d => (8, d) := by
  obtain ⟨fields, hf, hc⟩ := classes_struct hk hn hu hs h
  refine ⟨_, hc, ?_, ?_⟩
  · rw [← fromMetas_names hf]
    simp [classFor]
  · simp only [source, genStruct, Bool.not_false, if_true, hf, Option.map_some, Option.some.injEq] at h
    subst h
    have h1 := shown_opening hn hu shown_new
    have h2 := shown_class hk hs hb (fromMetas_data hf) (fromMetas_ok hk hs.fields hf) (fromMetas_all (P := fun t => '<' ∉ t) hf hl) false rfl h1
    have h3 := h2.outdent.lit (l := lit! "}") rfl
    simpa [classFor, genFileClosing, Writer.outdentWriteln] using h3.outline

/-- What the file of an enum declares. -/
theorem outline_enum (hk : KeepsNames cm) {setting : CSharpSetting} (hn : IsName setting.namespace')
    (hu : ∀ u ∈ setting.usedNamespaces, IsName u) {e : EnumMeta} (he : Named (.enum e)) (hb : '<' ∉ e.name.csharpName.toList)
    (hvb : ∀ v ∈ e.variants, '<' ∉ (variantName cm v).1 ∧ '<' ∉ (variantName cm v).2)
    (hl : ∀ v ∈ e.variants, ∀ f ∈ v.ty.fields, '<' ∉ propName cm f) {t : Text} (h : source cm setting (.enum e) = some t) :
    ∃ c cs, classesOf t = c :: cs ∧ cs.map (fun c => c.props.map Prod.snd) = e.variants.map (fun v => v.ty.fields.map (propName cm)) ∧
      outline t = (4, ⟨lit! "public", .cls, [], e.name.csharpName.toList ++ typeParams e.typeParams⟩) ::
        ((enumMembers (e.name.csharpName.toList ++ typeParams e.typeParams) (e.variants.map (variantName cm))).map fun d => (8, d)) ++
        (List.zipWith variantOutline e.variants cs).flatten := by
  obtain ⟨dflt, cs, hd, hvc, hc⟩ := classes_enum hk hn hu he h
  refine ⟨_, cs, hc, hvc.props, ?_⟩
  simp only [source, genEnum, hd] at h
  cases hv : genVariants cm setting e.variants (genEnumClass cm e dflt (genFileOpening setting (.new 4))) with
  | none => rw [hv] at h; cases h
  | some w =>
    rw [hv] at h
    cases h
    have h1 := shown_opening hn hu shown_new
    have h2 := shown_enumClass hk he.1 hb he.2.1 he.2.2 (fun v hm => (hvb v hm).2) (List.mem_of_find?_eq_some hd) rfl h1
    obtain ⟨new, hnew, h3⟩ := shown_variants hk he.2.2 (fun v hm => (hvb v hm).1) hl h2 hv
    rw [hvc.unique hnew]
    have h4 := (h3.outdent.lit (l := lit! "}") rfl).outdent.lit (l := lit! "}") rfl
    simpa [genFileClosing, Writer.outdentWriteln] using h4.outline

end Steit.Gen
