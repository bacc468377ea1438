import Verif.Lemmas.Layout

/-!
# The generator writes well-bracketed, indented text
-/

namespace Steit.Gen

open Spec

set_option maxRecDepth 8192

/-! ## Texts put into lines -/

instance (t : Text) : Decidable (Unbr t) := inferInstanceAs (Decidable (∀ c ∈ t, _))

theorem decimal_name (n : U32) : IsName (decimal n) := by
  intro c hc hm
  have := Nat.isDigit_of_mem_toDigits (by decide) (by decide) hc
  simp only [List.mem_cons, List.not_mem_nil, or_false] at hm
  rcases hm with h | h | h | h | h | h <;> subst h <;> revert this <;> decide

theorem decimal_unbr (n : U32) : Unbr (decimal n) := isName_unbr (decimal_name n)

theorem unbr_nil : Unbr [] := by intro c hc; cases hc

theorem joinComma_unbr : ∀ {ts : List Text}, (∀ t ∈ ts, Unbr t) → Unbr (joinComma ts)
  | [], _ => unbr_nil
  | [t], h => h t List.mem_cons_self
  | t :: u :: ts, h =>
    ((h t List.mem_cons_self).append (by decide)).append (joinComma_unbr fun x hx => h x (List.mem_cons_of_mem _ hx))

theorem typeParams_unbr {ps : List String} (h : ∀ p ∈ ps, IsName p.toList) : Unbr (typeParams ps) := by
  unfold typeParams
  split
  · exact unbr_nil
  · simp only [fmt, Frag.text]
    refine Unbr.append (by decide) ((joinComma_unbr ?_).append (by decide))
    intro t ht
    obtain ⟨p, hp, rfl⟩ := List.mem_map.1 ht
    exact isName_unbr (h p hp)

/-- A name with its type parameters. -/
theorem typeName_begins {name : Text} (h : IsName name) (ps : List String) : Begins (name ++ typeParams ps) := by
  cases name with
  | cons c cs => exact isName_begins (t := c :: cs) h
  | nil =>
    unfold typeParams
    split
    · trivial
    · exact (by decide : Starts '<')

mutual
theorem fieldType_unbr : ∀ {f : FieldTypeMeta} {t : Text}, NamedField f → fieldType f = some t → Unbr t
  | .type ty, t, h, ht => typeName_unbr (t := ty) h ht
  | .typeParam p, t, h, ht => by cases ht; exact isName_unbr h

theorem typeName_unbr : ∀ {t : TypeMeta} {u : Text}, NamedType t → typeName t = some u → Unbr u
  | .primitive name _, u, h, hu => by
    simp only [typeName] at hu
    cases hc : name.csharp with
    | none => rw [hc] at hu; cases hu
    | some n =>
      rw [hc] at hu
      cases hu
      exact isName_unbr (h n hc)
  | .ref name .nil, u, h, hu => by
    cases hu
    exact isName_unbr h.1
  | .ref name (.cons a as), u, h, hu => by
    simp only [typeName] at hu
    split at hu
    · rename_i ta tas ha has
      have h1 := fieldType_unbr h.2.1 ha
      have h2 := fieldTypes_unbr h.2.2 has
      split at hu
      · cases hu; exact h1
      · cases hu
        simp only [fmt, Frag.text]
        refine (isName_unbr h.1).append (Unbr.append (by decide) ((joinComma_unbr ?_).append (by decide)))
        split
        · exact h2
        · intro t ht
          cases ht with
          | head => exact h1
          | tail _ ht => exact h2 t ht
    · cases hu

theorem fieldTypes_unbr : ∀ {as : TypeArgs} {ts : List Text}, NamedArgs as → fieldTypes as = some ts → ∀ t ∈ ts, Unbr t
  | .nil, ts, _, h => by cases h; intro t ht; cases ht
  | .cons a as, ts, hn, h => by
    simp only [fieldTypes] at h
    split at h
    · rename_i ta tas ha has
      cases h
      intro t ht
      cases ht with
      | head => exact fieldType_unbr hn.1 ha
      | tail _ ht => exact fieldTypes_unbr hn.2 has t ht
    · cases h
end

theorem isName_append {a b : Text} (ha : IsName a) (hb : IsName b) : IsName (a ++ b) := by
  intro c hc
  rcases List.mem_append.1 hc with h | h
  · exact ha c h
  · exact hb c h

theorem camel_name {cm : CaseMap} (hk : KeepsNames cm) : ∀ {t : Text} {u : Bool}, IsName t → IsName (toCamelCase cm t u)
  | [], _, _ => by intro c hc; cases hc
  | c :: cs, u, h => by
    have hcs : IsName cs := fun x hx => h x (List.mem_cons_of_mem _ hx)
    unfold toCamelCase
    split
    · exact camel_name hk hcs
    · split
      · exact isName_append (hk c (h c List.mem_cons_self)).1 (camel_name hk hcs)
      · intro x hx
        cases hx with
        | head => exact h c List.mem_cons_self
        | tail _ hx => exact camel_name hk hcs x hx

theorem uncap_name {cm : CaseMap} (hk : KeepsNames cm) {t : Text} (h : IsName t) : IsName (uncapFirstChar cm t) := by
  cases t with
  | nil => exact h
  | cons c cs => exact isName_append (hk c (h c List.mem_cons_self)).2 fun x hx => h x (List.mem_cons_of_mem _ hx)

/-- Fields ready to be written. -/
structure FieldOk (f : CSharpField) : Prop where
  name : IsName f.name
  type : Unbr f.typeName
  param : ∀ p, f.data.ty = .typeParam p → IsName p.toList

theorem fromMetas_ok {cm : CaseMap} (hk : KeepsNames cm) : ∀ {fs : List FieldMeta} {cs : List CSharpField},
    (∀ f ∈ fs, IsName f.name.csharpName.toList ∧ NamedField f.ty) → CSharpField.fromMetas cm fs = some cs → ∀ c ∈ cs, FieldOk c
  | [], cs, _, h => by cases h; intro c hc; cases hc
  | f :: fs, cs, hn, h => by
    simp only [CSharpField.fromMetas] at h
    split at h
    · rename_i cf cfs hf hfs
      cases h
      intro c hc
      cases hc with
      | head =>
        obtain ⟨h1, h2⟩ := hn f List.mem_cons_self
        unfold CSharpField.fromMeta at hf
        obtain ⟨t, ht, rfl⟩ := Option.map_eq_some_iff.1 hf
        refine ⟨camel_name hk h1, fieldType_unbr h2 ht, ?_⟩
        intro p hp
        simp only at hp
        rw [hp] at h2
        exact h2
      | tail _ hc => exact fromMetas_ok hk (fun f hf => hn f (List.mem_cons_of_mem _ hf)) hfs c hc
    · cases h

/-! ## Parts of classes -/

variable {size : Nat} {w : Writer} {st : List Br} {cm : CaseMap}

theorem insertSorted_mem {t u : Text} : ∀ {ts : List Text}, u ∈ insertSorted t ts → u = t ∨ u ∈ ts
  | [], h => .inl (List.mem_singleton.1 h)
  | v :: ts, h => by
    unfold insertSorted at h
    split at h
    · exact List.mem_cons.1 h
    · rcases List.mem_cons.1 h with rfl | h
      · exact .inr List.mem_cons_self
      · exact (insertSorted_mem h).imp_right (List.mem_cons_of_mem _)

theorem sortTexts_mem {u : Text} : ∀ {ts : List Text}, u ∈ sortTexts ts → u ∈ ts
  | t :: ts, h => by
    rcases insertSorted_mem h with rfl | h
    · exact List.mem_cons_self
    · exact List.mem_cons_of_mem _ (sortTexts_mem h)

theorem doc_opening {setting : CSharpSetting} (hn : IsName setting.namespace') (hu : ∀ u ∈ setting.usedNamespaces, IsName u)
    (h : Doc size w [] 0) : Doc size (genFileOpening setting w) [.brace] 1 := by
  unfold genFileOpening
  extract_lets w1 used w2
  have h1 : Doc size w1 [] 0 := (h.lit rfl).newline
  have h2 : Doc size w2 [] 0 := h1.each fun u hmem w h => by
    have : Unbr u := by
      rcases List.mem_append.1 (sortTexts_mem hmem) with hm | hm
      · simp only [List.mem_cons, List.not_mem_nil, or_false] at hm
        rcases hm with rfl | rfl | rfl | rfl | rfl <;> (intro c hc; revert c; decide)
      · exact isName_unbr (hu u hm)
    exact h.fmt (fs := fmt! "using {};" u) rfl ⟨this.bal, trivial⟩
  exact (h2.newline.fmt (fs := fmt! "namespace {} {{" setting.namespace') (st' := [.brace]) rfl ⟨isName_bal hn, trivial⟩).indent

theorem doc_clearField {f : CSharpField} (hf : FieldOk f) (many : Bool) (h : Doc size w st st.length) :
    Doc size (genClearField many w f) st st.length := by
  have hu := isName_bal hf.name
  unfold genClearField
  cases many with
  | true =>
    simp only [if_true, write_write, writeln_split, List.append_assoc]
    have := h.fmt (st' := st) (fs := fmt! "public static void Clear{0}UpdateHandlers() {{ On{0}Update = null; }}" f.name) rfl
      ⟨hu, hu, trivial⟩
    simpa [fmt, Frag.text] using this
  | false =>
    simp only [Bool.false_eq_true, if_false, writeln_split]
    have h1 := (h.fmt (st' := .brace :: st) (fs := fmt! "public static void Clear{0}UpdateHandlers() {{" f.name) rfl ⟨hu, trivial⟩).indent
    have h2 := h1.fmt (st' := .brace :: st) (fs := fmt! "On{0}Update = null;" f.name) rfl ⟨hu, trivial⟩
    exact h2.brace

/-- One line for each field, broken before rather than after. -/
theorem clearAll_lines (a : CSharpField → Text) (w : Writer) (l : Text) : ∀ fs : List CSharpField,
    (each fs (fun w f => (w.newline.writeIndentation).write (a f)) (w.writeIndentation.write l)).newline =
      each fs (fun w f => w.writeln (a f)) (w.writeln l)
  | [] => rfl
  | f :: fs => by
    have := clearAll_lines a (w.writeln l) (a f) fs
    exact this

theorem each_newline_comm {f : CSharpField → Text} (fs : List CSharpField) (w : Writer) :
    (each fs (fun w x => (w.newline.writeIndentation).write (f x)) w).outdent.newline =
      (each fs (fun w x => (w.newline.writeIndentation).write (f x)) w).newline.outdent := by
  generalize each fs (fun w x => (w.newline.writeIndentation).write (f x)) w = w
  unfold Writer.outdent Writer.newline
  simp only
  split <;> rfl

theorem doc_clearAll {fields : List CSharpField} (hf : ∀ f ∈ fields, FieldOk f) (h : Doc size w st st.length) :
    Doc size (genClearAll fields w) st st.length := by
  unfold genClearAll
  cases fields with
  | nil =>
    simp only [List.isEmpty_nil, Bool.not_true, Bool.false_eq_true, if_false, each, List.foldl_nil, write_write, writeln_split]
    exact h.lit rfl
  | cons f fs =>
    simp only [List.isEmpty_cons, Bool.not_false, if_true]
    have h1 : Doc size (w.writeln (lit! "public static void ClearUpdateHandlers() {")).indent (.brace :: st) (st.length + 1) :=
      (h.lit (st' := .brace :: st) rfl).indent
    have key : ∀ (w' : Writer), Doc size w'.newline (.brace :: st) (st.length + 1) →
        Doc size (each (f :: fs) (fun w x => (w.newline.writeIndentation).write (fmt (fmt! "On{}Update = null;" x.name))) w').newline
          (.brace :: st) (st.length + 1) := by
      intro w' hw'
      have e : (each (f :: fs) (fun w x => (w.newline.writeIndentation).write (fmt (fmt! "On{}Update = null;" x.name))) w').newline =
          each (f :: fs) (fun w x => w.writeln (fmt (fmt! "On{}Update = null;" x.name))) w'.newline :=
        clearAll_lines (fun x => fmt (fmt! "On{}Update = null;" x.name)) w'.newline (fmt (fmt! "On{}Update = null;" f.name)) fs
      rw [e]
      exact hw'.each fun x hx w h => h.fmt (fs := fmt! "On{}Update = null;" x.name) rfl ⟨isName_bal (hf x hx).name, trivial⟩
    rw [each_newline_comm]
    exact (key (w.writeIndentation.write (lit! "public static void ClearUpdateHandlers() {")).indent h1).brace

theorem fieldWireType_bal {f : FieldMeta} (h : NamedField f.ty) : Bal (fieldWireType f) := by
  unfold fieldWireType
  split
  · exact fun _ => rfl
  · exact fun _ => rfl
  · exact fun _ => rfl
  · rename_i p hp
    rw [hp] at h
    exact fmt_bal ⟨isName_bal h, trivial⟩ fun _ => rfl

theorem fieldInit_bal {f : CSharpField} (h : FieldOk f) {t : Text} (ht : fieldInit f = some t) : Bal t := by
  unfold fieldInit at ht
  split at ht
  · cases ht
  · cases ht
    exact fmt_bal ⟨h.type.bal, (decimal_unbr _).bal, trivial⟩ fun _ => rfl
  · cases ht
    rename_i p hp
    exact fmt_bal ⟨isName_bal (h.param p hp), (decimal_unbr _).bal, trivial⟩ fun _ => rfl

theorem fieldNested_bal {f : CSharpField} (h : FieldOk f) {t : Text} (ht : fieldNested f = some t) : Bal t := by
  unfold fieldNested at ht
  split at ht <;> cases ht
  · exact fmt_bal ⟨isName_bal h.name, trivial⟩ fun _ => rfl
  · exact fmt_bal ⟨isName_bal h.name, trivial⟩ fun _ => rfl

theorem doc_replace {f : CSharpField} (hf : FieldOk f) (h : Doc size w st st.length) :
    Doc size (w.writeln (fieldReplace f)) st st.length := by
  have d : Bal (decimal f.data.tag) := (decimal_unbr _).bal
  have m := isName_bal hf.name
  have t := hf.type.bal
  unfold fieldReplace
  split
  · exact h.fmt rfl ⟨d, m, d, t, m, m, trivial⟩
  · exact h.fmt rfl ⟨d, m, d, t, d, m, m, trivial⟩
  · exact h.fmt rfl ⟨d, m, d, t, d, m, m, trivial⟩

/-- The class of a struct or variant. -/
theorem doc_class (hk : KeepsNames cm) {s : StructMeta} (hs : NamedStruct s) {fields : List CSharpField} (hf : ∀ f ∈ fields, FieldOk f)
    (isVariant : Bool) (h : Doc size w st st.length) : Doc size (genClass cm s fields isVariant w) st st.length := by
  unfold genClass
  extract_lets name varName typeName access spaced w1 w2 w3 w4 w5 w6 w7 w8 w9 w10 w11 w12 w13 w14 w15 w16 w17 w18 w19 w20 w21 w22 w23
    w24 w25 w26 w27 w28 w29 w30 w31 w32 w33 w34 w35 w36 w37 w38 w39 w40 w41 w42 w43 w44 w45 w46 w47 w48 w49 w50
  have bn : Bal name := isName_bal hs.name
  have iv : IsName varName := uncap_name hk hs.name
  have bv : Bal varName := isName_bal iv
  have bt : Bal typeName := by
    show Bal (if !isVariant then name ++ typeParams s.typeParams else name)
    split
    · exact ((isName_unbr hs.name).append (typeParams_unbr hs.typeParams)).bal
    · exact bn
  have ba : Bal access ∧ Begins access ∧ access ≠ [] := by
    show Bal (if isVariant then _ else _) ∧ Begins (if isVariant then _ else _) ∧ (if isVariant then _ else _) ≠ []
    cases isVariant
    · exact ⟨fun _ => rfl, (by decide : Starts 'p'), List.cons_ne_nil _ _⟩
    · exact ⟨fun _ => rfl, (by decide : Starts 'i'), List.cons_ne_nil _ _⟩
  have h1 : Doc size w1 (.brace :: st) (st.length + 1) :=
    (h.fmt (fs := fmt! "public sealed partial class {} : IState {{" typeName) (st' := .brace :: st) rfl ⟨bt, trivial⟩).indent
  have h2 : Doc size w2 (.brace :: st) (st.length + 1) := h1.lit rfl
  have h3 : Doc size w3 (.brace :: st) (st.length + 1) := by
    show Doc size (if fields.length > 1 then w2.newline else w2) _ _
    split
    · exact h2.newline
    · exact h2
  have h4 : Doc size w4 (.brace :: st) (st.length + 1) := h3.each fun f hm w h =>
    h.fmt (fs := fmt! "public {} {} {{ get; private set; }}" f.typeName, f.name) rfl ⟨(hf f hm).type.bal, isName_bal (hf f hm).name, trivial⟩
  have h5 : Doc size w5 (.brace :: .brace :: st) (st.length + 2) :=
    (h4.newline.fmt (fs := fmt! "{} {}(Path path = null) {{" access, name) (st' := .brace :: .brace :: st) rfl ⟨ba.1, bn, trivial⟩
      ⟨ba.2.1, fun e => absurd e ba.2.2⟩).indent
  have h6 : Doc size w6 (.brace :: .brace :: st) (st.length + 2) := h5.each fun p hm w h =>
    h.fmt (fs := fmt! "StateFactory.ValidateType(typeof({}));" p.toList) rfl ⟨isName_bal (hs.typeParams p hm), trivial⟩
  have h7 : Doc size w7 (.brace :: .brace :: st) (st.length + 2) := h6.newlineIf spaced
  have h8 : Doc size w8 (.brace :: .brace :: st) (st.length + 2) := h7.lit rfl
  have h9 : Doc size w9 (.brace :: .brace :: st) (st.length + 2) := h8.newlineIf spaced
  have h10 : Doc size w10 (.brace :: .brace :: st) (st.length + 2) := h9.each fun f hm w h => h.writelnSome fun t ht w h =>
    h.fmt (fs := fmt! "this.{} = {};" f.name, t) rfl ⟨isName_bal (hf f hm).name, fieldInit_bal (hf f hm) ht, trivial⟩
  have h11 : Doc size w11 (.brace :: st) (st.length + 1) := h10.brace.newline
  have h12 : Doc size w12 (.brace :: st) (st.length + 1) := h11.each fun f hm w h =>
    h.fmt (fs := fmt! "public static event EventHandler<FieldUpdateEventArgs<{}, {}>> On{}Update;" f.typeName, typeName, f.name) rfl
      ⟨(hf f hm).type.bal, bt, isName_bal (hf f hm).name, trivial⟩
  have h13 : Doc size w13 (.brace :: st) (st.length + 1) := h12.newlineIf _
  have h14 : Doc size w14 (.brace :: st) (st.length + 1) := h13.each fun f hm w h => doc_clearField (hf f hm) _ h
  have h15 : Doc size w15 (.brace :: st) (st.length + 1) := h14.newlineIf _
  have h16 : Doc size w16 (.brace :: st) (st.length + 1) := (doc_clearAll hf h15).newline
  have h17 : Doc size w17 (.brace :: .brace :: st) (st.length + 1) :=
    h16.fmt (fs := fmt! "{} static {} Deserialize(IReader reader, Path path = null) {{" access, typeName) rfl ⟨ba.1, bt, trivial⟩
      ⟨ba.2.1, fun e => absurd e ba.2.2⟩
  have h18 : Doc size w18 (.brace :: .brace :: st) (st.length + 2) := h17.indent.fmt (fs := fmt! "var {} = new {}(path);" varName, typeName) rfl ⟨bv, bt, trivial⟩
  have h19 : Doc size w19 (.brace :: .brace :: st) (st.length + 2) := h18.fmt (fs := fmt! "{}.Replace(reader, shouldNotify: false);" varName) rfl ⟨bv, trivial⟩
    ⟨isName_begins iv, fun _ => (by decide : Starts '.')⟩
  have h20 : Doc size w20 (.brace :: .brace :: st) (st.length + 2) := h19.fmt (fs := fmt! "return {};" varName) rfl ⟨bv, trivial⟩
  have h21 : Doc size w21 (.brace :: st) (st.length + 1) := h20.brace.newline
  have h22 : Doc size w22 (.brace :: .brace :: st) (st.length + 1) := h21.lit rfl
  have h23 : Doc size w23 (.brace :: .brace :: .brace :: st) (st.length + 3) := (h22.indent.lit (st' := .brace :: .brace :: .brace :: st) rfl).indent
  have h24 : Doc size w24 (.brace :: .brace :: .brace :: st) (st.length + 3) := h23.each fun f hm w h =>
    h.fmt (fs := fmt! "case {}: return {};" decimal f.tag, fieldWireType f) rfl
      ⟨(decimal_unbr _).bal, fieldWireType_bal (hs.fields f hm).2, trivial⟩
  have h25 : Doc size w25 (.brace :: .brace :: .brace :: st) (st.length + 3) := h24.lit rfl
  have h26 : Doc size w26 (.brace :: st) (st.length + 1) := h25.brace.brace.newline
  have h27 : Doc size w27 (.brace :: .brace :: st) (st.length + 1) := h26.lit rfl
  have h28 : Doc size w28 (.brace :: .brace :: .brace :: st) (st.length + 3) := (h27.indent.lit (st' := .brace :: .brace :: .brace :: st) rfl).indent
  have h29 : Doc size w29 (.brace :: .brace :: .brace :: st) (st.length + 3) := h28.each fun f hm w h => h.writelnSome fun t ht w h =>
    h.fmt (fs := fmt! "case {}: return {};" decimal f.data.tag, t) rfl ⟨(decimal_unbr _).bal, fieldNested_bal (hf f hm) ht, trivial⟩
  have h30 : Doc size w30 (.brace :: .brace :: .brace :: st) (st.length + 3) := h29.lit rfl
  have h31 : Doc size w31 (.brace :: st) (st.length + 1) := h30.brace.brace.newline
  have h32 : Doc size w32 (.brace :: .brace :: st) (st.length + 1) := h31.lit rfl
  have h33 : Doc size w33 (.brace :: .brace :: .brace :: st) (st.length + 3) := (h32.indent.lit (st' := .brace :: .brace :: .brace :: st) rfl).indent
  have h34 : Doc size w34 (.brace :: .brace :: .brace :: st) (st.length + 3) := h33.each fun f hm w h => doc_replace (hf f hm) h
  have h35 : Doc size w35 (.brace :: .brace :: .brace :: st) (st.length + 3) := h34.lit rfl
  have h36 : Doc size w36 (.brace :: st) (st.length + 1) := h35.brace.brace.newline
  have h37 : Doc size w37 (.brace :: st) (st.length + 1) := h36.lit rfl
  have h38 : Doc size w38 (.brace :: st) (st.length + 1) := h37.lit rfl
  have h39 : Doc size w39 (.brace :: st) (st.length + 1) := h38.lit rfl
  have h40 : Doc size w40 (.paren :: .brace :: st) (st.length + 1) := h39.newline.lit rfl
  have h41 : Doc size w41 (.paren :: .brace :: st) (st.length + 2) := h40.indent.lit rfl
  have h42 : Doc size w42 (.paren :: .brace :: st) (st.length + 2) := (h41.lit (st' := .paren :: .brace :: st) rfl).lit rfl
  have h43 : Doc size w43 (.paren :: .brace :: st) (st.length + 2) :=
    h42.fmt (fs := fmt! "EventHandler<FieldUpdateEventArgs<TValue, {}>> handler," typeName) rfl ⟨bt, trivial⟩
  have h44 : Doc size w44 (.paren :: .brace :: st) (st.length + 2) := h43.lit rfl
  have h45 : Doc size w45 (.brace :: .brace :: st) (st.length + 1) := h44.closing (.inr rfl) rfl rfl
  have h46 : Doc size w46 (.brace :: .brace :: .brace :: st) (st.length + 2) := h45.indent.lit rfl
  have h47 : Doc size w47 (.brace :: .brace :: .brace :: st) (st.length + 3) :=
    h46.indent.fmt (fs := fmt! "var args = new FieldUpdateEventArgs<TValue, {}>(tag, newValue, oldValue, this);" typeName) rfl ⟨bt, trivial⟩
  have h48 : Doc size w48 (.brace :: .brace :: .brace :: st) (st.length + 3) := h47.lit rfl
  have h49 : Doc size w49 (.brace :: .brace :: st) (st.length + 2) := h48.brace.newline
  have h50 : Doc size w50 (.brace :: .brace :: st) (st.length + 2) := h49.lit rfl
  exact h50.brace.brace

/-- The class of an enum, up to its variants. -/
theorem doc_enumClass (hk : KeepsNames cm) {e : EnumMeta} (hn : IsName e.name.csharpName.toList)
    (hp : ∀ p ∈ e.typeParams, IsName p.toList) (hv : ∀ v ∈ e.variants, NamedStruct v.ty) {dflt : VariantMeta} (hd : dflt ∈ e.variants)
    (h : Doc size w st st.length) : Doc size (genEnumClass cm e dflt w) (.brace :: st) (st.length + 1) := by
  unfold genEnumClass
  extract_lets name varName typeName camel plain spaced w1 w2 w3 w4 w5 w6 w7 w8 w9 w10 w11 w12 w13 w14 w15 w16 w17 w18 w19 w20 w21 w22
    w23 w24 w25 w26 w27 w28 w29 w30 w31 w32 w33 w34 w35 w36 w37 w38 w39 w40 w41 w42 w43 w44 w45 w46
  have bn : Bal name := isName_bal hn
  have iv : IsName varName := uncap_name hk hn
  have bv : Bal varName := isName_bal iv
  have bt : Bal typeName := ((isName_unbr hn).append (typeParams_unbr hp)).bal
  have bc : ∀ v ∈ e.variants, Bal (camel v) := fun v hm => isName_bal (camel_name hk (hv v hm).name)
  have bp : ∀ v ∈ e.variants, Bal (plain v) := fun v hm => isName_bal (hv v hm).name
  have bd : ∀ n : U32, Bal (decimal n) := fun n => (decimal_unbr n).bal
  have h1 : Doc size w1 (.brace :: st) (st.length + 1) :=
    (h.fmt (fs := fmt! "public sealed partial class {} : IEnumState {{" typeName) (st' := .brace :: st) rfl ⟨bt, trivial⟩).indent
  have h2 : Doc size w2 (.brace :: st) (st.length + 1) := h1.each fun v hm w h =>
    h.fmt (fs := fmt! "public const UInt32 {}Tag = {};" camel v, decimal v.tag) rfl ⟨bc v hm, bd _, trivial⟩
  have h3 : Doc size w3 (.brace :: st) (st.length + 1) := (h2.newline.lit (st' := .brace :: st) rfl).newline
  have h4 : Doc size w4 (.brace :: st) (st.length + 1) := h3.lit rfl
  have h5 : Doc size w5 (.brace :: st) (st.length + 1) := (h4.lit (st' := .brace :: st) rfl).newline
  have h6 : Doc size w6 (.brace :: st) (st.length + 1) := h5.each fun v hm w h =>
    h.fmt (fs := fmt! "public {0} {0}Variant {{ get {{ return this.Variant as {0}; }} }}" plain v) rfl
      ⟨bp v hm, bp v hm, bp v hm, trivial⟩
  have h7 : Doc size w7 (.brace :: st) (st.length + 1) := 
    (h6.newline.fmt (fs := fmt! "public {}(Path path = null) : this(path, {}) {{ }}" name, decimal dflt.tag) (st' := .brace :: st) rfl
      ⟨bn, bd _, trivial⟩).newline
  have h8 : Doc size w8 (.brace :: .brace :: st) (st.length + 2) := 
    (h7.fmt (fs := fmt! "public {}(Path path, UInt32 tag) {{" name) (st' := .brace :: .brace :: st) rfl ⟨bn, trivial⟩).indent
  have h9 : Doc size w9 (.brace :: .brace :: st) (st.length + 2) := h8.each fun p hm w h =>
    h.fmt (fs := fmt! "StateFactory.ValidateType(typeof({}));" p.toList) rfl ⟨isName_bal (hp p hm), trivial⟩
  have h10 : Doc size w10 (.brace :: .brace :: st) (st.length + 2) := h9.newlineIf spaced
  have h11 : Doc size w11 (.brace :: .brace :: st) (st.length + 2) := h10.lit rfl
  have h12 : Doc size w12 (.brace :: .brace :: st) (st.length + 2) := h11.newlineIf spaced
  have h13 : Doc size w13 (.brace :: .brace :: .brace :: st) (st.length + 3) := ((h12.lit (st' := .brace :: .brace :: st) rfl).newline.lit (st' := .brace :: .brace :: .brace :: st) rfl).indent
  have h14 : Doc size w14 (.brace :: .brace :: .brace :: st) (st.length + 3) := h13.each fun v hm w h =>
    h.fmt (fs := fmt! "case {0}: this.Variant = new {1}(this.Path.GetNested({0})); break;" decimal v.tag, plain v) rfl
      ⟨bd _, bp v hm, bd _, trivial⟩
  have h15 : Doc size w15 (.brace :: .brace :: .brace :: st) (st.length + 3) := h14.fmt
    (fs := fmt! "default: this.Variant = new {}(this.Path.GetNested({})); break;" plain dflt, decimal dflt.tag) rfl ⟨bp _ hd, bd _, trivial⟩
  have h16 : Doc size w16 (.brace :: st) (st.length + 1) := h15.brace.brace.newline
  have h17 : Doc size w17 (.brace :: st) (st.length + 1) := h16.each fun v hm w h =>
    h.fmt (fs := fmt! "public static {0} New{1}(Path path = null) {{ return new {0}(path, {2}); }}" name, camel v, decimal v.tag) rfl
      ⟨bn, bc v hm, bn, bd _, trivial⟩
  have h18 : Doc size w18 (.brace :: st) (st.length + 1) := 
    (h17.newline.fmt (fs := fmt! "public static event EventHandler<VariantUpdateEventArgs<{}>> OnUpdate;" typeName) (st' := .brace :: st)
      rfl ⟨bt, trivial⟩).newline
  have h19 : Doc size w19 (.brace :: .brace :: st) (st.length + 1) := h18.lit rfl
  have h20 : Doc size w20 (.brace :: st) (st.length + 1) := (h19.indent.lit (st' := .brace :: .brace :: st) rfl).brace.newline
  have h21 : Doc size w21 (.brace :: .brace :: st) (st.length + 1) :=
    h20.fmt (fs := fmt! "public static {} Deserialize(IReader reader, Path path = null) {{" typeName) rfl ⟨bt, trivial⟩
  have h22 : Doc size w22 (.brace :: .brace :: st) (st.length + 2) := h21.indent.fmt (fs := fmt! "var {} = new {}(path);" varName, typeName) rfl ⟨bv, bt, trivial⟩
  have h23 : Doc size w23 (.brace :: .brace :: st) (st.length + 2) := h22.fmt (fs := fmt! "{}.Replace(reader, shouldNotify: false);" varName) rfl ⟨bv, trivial⟩
    ⟨isName_begins iv, fun _ => (by decide : Starts '.')⟩
  have h24 : Doc size w24 (.brace :: .brace :: st) (st.length + 2) := h23.fmt (fs := fmt! "return {};" varName) rfl ⟨bv, trivial⟩
  have h25 : Doc size w25 (.brace :: st) (st.length + 1) := h24.brace.newline
  have h26 : Doc size w26 (.brace :: .brace :: st) (st.length + 1) := h25.lit rfl
  have h27 : Doc size w27 (.brace :: .brace :: .brace :: st) (st.length + 3) := (h26.indent.lit (st' := .brace :: .brace :: .brace :: st) rfl).indent
  have h28 : Doc size w28 (.brace :: .brace :: .brace :: st) (st.length + 3) := h27.each fun v hm w h =>
    h.fmt (fs := fmt! "case {}: return WireType.Sized;" decimal v.tag) rfl ⟨bd _, trivial⟩
  have h29 : Doc size w29 (.brace :: .brace :: .brace :: st) (st.length + 3) := h28.lit rfl
  have h30 : Doc size w30 (.brace :: st) (st.length + 1) := h29.brace.brace.newline
  have h31 : Doc size w31 (.brace :: .brace :: st) (st.length + 1) := h30.lit rfl
  have h32 : Doc size w32 (.brace :: st) (st.length + 1) := (h31.indent.lit (st' := .brace :: .brace :: st) rfl).brace.newline
  have h33 : Doc size w33 (.brace :: .brace :: st) (st.length + 1) := h32.lit rfl
  have h34 : Doc size w34 (.brace :: .brace :: .brace :: st) (st.length + 3) := (h33.indent.lit (st' := .brace :: .brace :: .brace :: st) rfl).indent
  have h35 : Doc size w35 (.brace :: .brace :: .brace :: st) (st.length + 3) := h34.each fun v hm w h =>
    h.fmt (fs := fmt! "case {0}: this.UpdateAndNotify({0}, {1}.Deserialize(reader, this.Path.GetNested({0})), shouldNotify); break;"
      decimal v.tag, plain v) rfl ⟨bd _, bd _, bp v hm, bd _, trivial⟩
  have h36 : Doc size w36 (.brace :: .brace :: .brace :: st) (st.length + 3) := h35.lit rfl
  have h37 : Doc size w37 (.brace :: st) (st.length + 1) := h36.brace.brace.newline
  have h38 : Doc size w38 (.brace :: st) (st.length + 1) := h37.lit rfl
  have h39 : Doc size w39 (.brace :: st) (st.length + 1) := h38.lit rfl
  have h40 : Doc size w40 (.brace :: st) (st.length + 1) := h39.lit rfl
  have h41 : Doc size w41 (.brace :: .brace :: st) (st.length + 1) := h40.newline.lit rfl
  have h42 : Doc size w42 (.brace :: .brace :: .brace :: st) (st.length + 2) := h41.indent.lit rfl
  have h43 : Doc size w43 (.brace :: .brace :: .brace :: st) (st.length + 3) :=
    h42.indent.fmt (fs := fmt! "var args = new VariantUpdateEventArgs<{}>(newTag, newVariant, this.Tag, this.Variant, this);" typeName) rfl
      ⟨bt, trivial⟩
  have h44 : Doc size w44 (.brace :: .brace :: .brace :: st) (st.length + 3) :=
    h43.fmt (fs := fmt! "{}.OnUpdate?.Invoke(this, args);" typeName) rfl ⟨bt, trivial⟩
      ⟨typeName_begins hn _, fun _ => (by decide : Starts '.')⟩
  have h45 : Doc size w45 (.brace :: .brace :: st) (st.length + 2) := h44.brace.newline
  have h46 : Doc size w46 (.brace :: .brace :: st) (st.length + 2) := (h45.lit (st' := .brace :: .brace :: st) rfl).lit rfl
  exact h46.brace

theorem doc_variants (hk : KeepsNames cm) {setting : CSharpSetting} : ∀ {vs : List VariantMeta} {w w' : Writer},
    (∀ v ∈ vs, NamedStruct v.ty) → Doc size w st st.length → genVariants cm setting vs w = some w' → Doc size w' st st.length
  | [], _, _, _, h, hw => by cases hw; exact h
  | v :: vs, w, w', hv, h, hw => by
    simp only [genVariants, genStruct, Bool.not_true, Bool.false_eq_true, if_false] at hw
    have hs := hv v List.mem_cons_self
    have h1 := (h.newline.fmt (fs := fmt! "// Variant ({}): {}" decimal v.tag, v.ty.name.csharpName.toList) (st' := st) rfl
      ⟨(decimal_unbr _).bal, isName_bal hs.name, trivial⟩).newline
    cases hm : CSharpField.fromMetas cm v.ty.fields with
    | none => rw [hm] at hw; cases hw
    | some fields =>
      rw [hm] at hw
      exact doc_variants hk (fun v hm => hv v (List.mem_cons_of_mem _ hm)) (doc_class hk hs (fromMetas_ok hk hs.fields hm) true h1) hw

end Steit.Gen
