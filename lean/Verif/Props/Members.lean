import Verif.Lemmas.MembersClean
import Verif.Props.Tables

/-!
# C68: what generated classes declare

`Spec/Members.lean` reads the declarations off the text of a generated file, with the rules of C# on names of members.
-/

namespace Steit.Gen

open Steit.Gen.Spec Steit.Spec

/-- C68. The file of a struct declares one class and in it exactly: the path; for each field a property, named as the field in camel case,
an event for updates of the type of the property, and a method to clear its handlers; the constructor, and the methods of a state. -/
theorem C68_struct {cm : CaseMap} (hk : KeepsNames cm) {setting : CSharpSetting} (hn : IsName setting.namespace')
    (hu : ∀ u ∈ setting.usedNamespaces, IsName u) {s : StructMeta} (hs : NamedStruct s) (hi : IdentStruct cm s) {text : Text}
    (h : source cm setting (.struct s) = some text) : ∃ c, classesOf text = [c] ∧ c.props.map Prod.snd = s.fields.map (propName cm) ∧
      outline text = (4, ⟨lit! "public", .cls, [], c.name⟩) :: (structMembers (lit! "public") c.name c.props).map fun d => (8, d) := by
  obtain ⟨fields, hf, hc⟩ := classes_struct hk hn hu hs h
  obtain ⟨c, hc', hp, ho⟩ := outline_struct hk hn hu hs hi.name.2.1 (fun f hf => (hi.props f hf).2.1) h
  have : c.name = s.name.csharpName.toList ++ typeParams s.typeParams := by
    rw [hc] at hc'
    cases hc'
    rfl
  exact ⟨c, hc', hp, by rw [this]; exact ho⟩

/-- C68. The file of an enum declares a class for the enum and, nested in it after its members, one for each variant in order. -/
theorem C68_enum {cm : CaseMap} (hk : KeepsNames cm) {setting : CSharpSetting} (hn : IsName setting.namespace')
    (hu : ∀ u ∈ setting.usedNamespaces, IsName u) {e : EnumMeta} (he : Named (.enum e)) (hi : IdentEnum cm e) {text : Text}
    (h : source cm setting (.enum e) = some text) : ∃ c cs, classesOf text = c :: cs ∧
      cs.map (fun c => c.props.map Prod.snd) = e.variants.map (fun v => v.ty.fields.map (propName cm)) ∧
      outline text = (4, ⟨lit! "public", .cls, [], c.name⟩) ::
        ((enumMembers c.name (e.variants.map (variantName cm))).map fun d => (8, d)) ++
        (List.zipWith variantOutline e.variants cs).flatten := by
  obtain ⟨dflt, cs', _, _, hc⟩ := classes_enum hk hn hu he h
  obtain ⟨c, cs, hc', hp, ho⟩ := outline_enum hk hn hu he hi.name.2.1 (fun v hm => ⟨(hi.variants v hm).1.2.1, (hi.variants v hm).2.1.2.1⟩)
    (fun v hm f hf => ((hi.variants v hm).2.2 f hf).2.1) h
  have : c.name = e.name.csharpName.toList ++ typeParams e.typeParams := by
    rw [hc] at hc'
    cases hc'
    rfl
  exact ⟨c, cs, hc', hp, by rw [this]; exact ho⟩

theorem bare_typeName {name : Text} (hb : '<' ∉ name) (ps : List String) : bare (name ++ typeParams ps) = name := by
  unfold typeParams
  split
  · rw [List.append_nil]; exact bare_self hb
  · exact bare_append hb

/-- C68. The file of a struct obeys the rules of C# on names of members exactly if the names of its fields fit. -/
theorem C68_struct_clean_iff {cm : CaseMap} (hk : KeepsNames cm) {setting : CSharpSetting} (hn : IsName setting.namespace')
    (hu : ∀ u ∈ setting.usedNamespaces, IsName u) {s : StructMeta} (hs : NamedStruct s) (hi : IdentStruct cm s) {text : Text}
    (h : source cm setting (.struct s) = some text) :
    CleanFile text ↔ StructFits s.name.csharpName.toList (s.typeParams.map String.toList) (s.fields.map (propName cm)) := by
  obtain ⟨c, _, hp, ho⟩ := outline_struct hk hn hu hs hi.name.2.1 (fun f hf => (hi.props f hf).2.1) h
  change CleanOutline (outline text) ↔ _
  have hm := cleanOutline_members (n := 8) (ds := []) (structMembers_kinds (access := lit! "public")
    (cls := s.name.csharpName.toList ++ typeParams s.typeParams) (props := c.props))
  have ha := membersAfter_level (n := 4) (ds := []) (ms := structMembers (lit! "public")
    (s.name.csharpName.toList ++ typeParams s.typeParams) c.props) fun d h => (nomatch h)
  rw [List.append_nil] at hm ha
  rw [ho, cleanOutline_cons, hm, ha, ← hp]
  have hl : ∀ x ∈ c.props.map Prod.snd, '<' ∉ x := by
    intro x hx
    rw [hp] at hx
    obtain ⟨f, hf, rfl⟩ := List.mem_map.1 hx
    exact (hi.props f hf).2.1
  rw [← clean_struct (access := lit! "public") (bare_typeName hi.name.2.1 _) (paramsOf_typeName hi.name.2.1 hi.params) hl]
  exact ⟨fun h => h.1 rfl, fun h => ⟨fun _ => h, cleanOutline_nil⟩⟩

/-- C68. The file of an enum obeys the rules of C# on names of members exactly if the names of its variants fit, and those of the fields of
each variant. -/
theorem C68_enum_clean_iff {cm : CaseMap} (hk : KeepsNames cm) {setting : CSharpSetting} (hn : IsName setting.namespace')
    (hu : ∀ u ∈ setting.usedNamespaces, IsName u) {e : EnumMeta} (he : Named (.enum e)) (hi : IdentEnum cm e) {text : Text}
    (h : source cm setting (.enum e) = some text) :
    CleanFile text ↔ EnumFits e.name.csharpName.toList (e.typeParams.map String.toList) (e.variants.map fun v => (variantName cm v).1)
        (e.variants.map fun v => (variantName cm v).2) ∧
      ∀ v ∈ e.variants, StructFits (variantName cm v).1 [] (v.ty.fields.map (propName cm)) := by
  obtain ⟨c, cs, hcl, hp, ho⟩ := outline_enum hk hn hu he hi.name.2.1 (fun v hm => ⟨(hi.variants v hm).1.2.1, (hi.variants v hm).2.1.2.1⟩)
    (fun v hm f hf => ((hi.variants v hm).2.2 f hf).2.1) h
  change CleanOutline (outline text) ↔ _
  have hlen : e.variants.length = cs.length := by simpa using (congrArg List.length hp).symm
  have hl : ∀ c ∈ cs, ∀ x ∈ c.props.map Prod.snd, '<' ∉ x := by
    intro c hc x hx
    have : c.props.map Prod.snd ∈ e.variants.map (fun v => v.ty.fields.map (propName cm)) := hp ▸ List.mem_map_of_mem hc
    obtain ⟨v, hv, ev⟩ := List.mem_map.1 this
    rw [← ev] at hx
    obtain ⟨f, hf, rfl⟩ := List.mem_map.1 hx
    exact ((hi.variants v hv).2.2 f hf).2.1
  have hlv : ∀ v ∈ e.variants.map (variantName cm), '<' ∉ v.1 ∧ '<' ∉ v.2 := by
    intro v hv
    obtain ⟨u, hu, rfl⟩ := List.mem_map.1 hv
    exact ⟨(hi.variants u hu).1.2.1, (hi.variants u hu).2.1.2.1⟩
  have hd : (e.variants.map fun v => (⟨lit! "public", .cls, [], v.ty.name.csharpName.toList⟩ : Decl)) =
      variantDecls (e.variants.map (variantName cm)) := by
    simp [variantDecls, variantName]
  rw [ho, List.cons_append, cleanOutline_cons, cleanOutline_members enumMembers_kinds, enum_membersAfter hlen, hd,
    clean_enum (bare_typeName hi.name.2.1 _) (paramsOf_typeName hi.name.2.1 hi.params) hlv, List.map_map, List.map_map,
    clean_variants hlen (fun v hm => (hi.variants v hm).1.2.1) hl]
  have hz : (∀ vc ∈ e.variants.zip cs, StructFits vc.1.ty.name.csharpName.toList [] (vc.2.props.map Prod.snd)) ↔
      ∀ v ∈ e.variants, StructFits (variantName cm v).1 [] (v.ty.fields.map (propName cm)) := by
    clear hcl ho hl hd hlv h hi he
    generalize e.variants = vs at hp hlen ⊢
    induction vs generalizing cs with
    | nil => simp
    | cons v vs ih =>
      cases cs with
      | nil => cases hlen
      | cons c cs =>
        simp only [List.map_cons, List.cons.injEq] at hp
        simp only [List.zip_cons_cons, List.mem_cons, forall_eq_or_imp, hp.1]
        exact and_congr Iff.rfl (ih cs hp.2 (by simpa using hlen))
  rw [hz]
  exact ⟨fun h => ⟨h.1 rfl, h.2⟩, fun h => ⟨fun _ => h.1, h.2⟩⟩

/-! ## Names that do not fit -/

/-- A struct with fields of type `u32`. -/
def exFlat (name : String) (fields : List String) : StructMeta :=
  ⟨⟨name, none⟩, [], fields.map fun f => ⟨⟨f, none⟩, .type (.primitive ⟨"u32", some "UInt32"⟩ .varint), 0#32⟩, false⟩

theorem exFlat_named {name : String} {fields : List String} (hn : IsName name.toList) (hf : ∀ f ∈ fields, IsName f.toList) :
    NamedStruct (exFlat name fields) := by
  refine ⟨hn, fun p hp => (nomatch hp), fun f hm => ?_⟩
  obtain ⟨x, hx, rfl⟩ := List.mem_map.1 hm
  exact ⟨hf x hx, fun n hn => by cases hn; decide +kernel⟩

/-- A struct whose names do not fit gives a file that is not accepted. -/
theorem exFlat_unclean {name : String} {fields : List String} (hn : IsName name.toList) (hf : ∀ f ∈ fields, IsName f.toList)
    (hi : IdentStruct ascii (exFlat name fields)) (hb : ¬ StructFits name.toList [] ((exFlat name fields).fields.map (propName ascii))) :
    ∃ text, source ascii ⟨lit! "N", []⟩ (.struct (exFlat name fields)) = some text ∧ ¬ CleanFile text := by
  have hsome : source ascii ⟨lit! "N", []⟩ (.struct (exFlat name fields)) ≠ none :=
    (C49_generates_iff _ _ _).2 fun f hf => by
      obtain ⟨x, hx, rfl⟩ := List.mem_map.1 hf
      exact fun h => (nomatch h)
  obtain ⟨text, ht⟩ := Option.ne_none_iff_exists'.1 hsome
  exact ⟨text, ht, fun h => hb ((C68_struct_clean_iff (setting := ⟨lit! "N", []⟩) ascii_keeps (by decide) (fun u hu => (nomatch hu)) (exFlat_named hn hf) hi ht).1 h)⟩

/-- C68. A field named `path` gives a second property `Path`. -/
theorem C68_false_path : ∃ text, source ascii ⟨lit! "N", []⟩ (.struct (exFlat "Route" ["path"])) = some text ∧ ¬ CleanFile text :=
  exFlat_unclean (by decide +kernel) (by decide +kernel) ⟨by decide +kernel, by decide +kernel, by decide +kernel⟩
    fun h => (h.free (lit! "Path") (by decide +kernel)).2.1 (by decide)

/-- C68. A field named as its struct gives a property named as its class. -/
theorem C68_false_class : ∃ text, source ascii ⟨lit! "N", []⟩ (.struct (exFlat "Name" ["name"])) = some text ∧ ¬ CleanFile text :=
  exFlat_unclean (by decide +kernel) (by decide +kernel) ⟨by decide +kernel, by decide +kernel, by decide +kernel⟩
    fun h => ((h.outer (lit! "Name") (by decide +kernel)).2 (lit! "Name") (by decide +kernel)).1 rfl

/-- C68. Fields may differ only by underscores. -/
theorem C68_false_underscores : ∃ text, source ascii ⟨lit! "N", []⟩ (.struct (exFlat "Pos" ["x_1", "x1"])) = some text ∧ ¬ CleanFile text :=
  exFlat_unclean (by decide +kernel) (by decide +kernel) ⟨by decide +kernel, by decide +kernel, by decide +kernel⟩
    fun h => absurd h.distinct (by decide +kernel)

/-- C68. A field may be named as the event of another. -/
theorem C68_false_event : ∃ text, source ascii ⟨lit! "N", []⟩ (.struct (exFlat "Log" ["x", "on_x_update"])) = some text ∧ ¬ CleanFile text :=
  exFlat_unclean (by decide +kernel) (by decide +kernel) ⟨by decide +kernel, by decide +kernel, by decide +kernel⟩
    fun h => ((h.free (lit! "OnXUpdate") (by decide +kernel)).2.2 (lit! "X") (by decide +kernel)).1 rfl

/-- `struct Pair<A, B> { a: A, b: B }`. -/
def exPair : StructMeta := ⟨⟨"Pair", none⟩, ["A", "B"], [⟨⟨"a", none⟩, .typeParam "A", 0#32⟩, ⟨⟨"b", none⟩, .typeParam "B", 1#32⟩], false⟩

theorem exPair_named : NamedStruct exPair := by
  refine ⟨by decide +kernel, by decide +kernel, fun f hf => ?_⟩
  simp only [exPair, List.mem_cons, List.not_mem_nil, or_false] at hf
  rcases hf with rfl | rfl
  · exact ⟨by decide +kernel, (by decide +kernel : IsName "A".toList)⟩
  · exact ⟨by decide +kernel, (by decide +kernel : IsName "B".toList)⟩

/-- C68. A field named as a type parameter gives a property named as this type parameter. -/
theorem C68_false_param : ∃ text, source ascii ⟨lit! "N", []⟩ (.struct exPair) = some text ∧ ¬ CleanFile text := by
  have hsome : source ascii ⟨lit! "N", []⟩ (.struct exPair) ≠ none :=
    (C49_generates_iff _ _ _).2 fun f hf => by
      simp only [exPair, List.mem_cons, List.not_mem_nil, or_false] at hf
      rcases hf with rfl | rfl <;> trivial
  obtain ⟨text, ht⟩ := Option.ne_none_iff_exists'.1 hsome
  refine ⟨text, ht, fun h => ?_⟩
  have := (C68_struct_clean_iff (setting := ⟨lit! "N", []⟩) ascii_keeps (by decide) (fun u hu => (nomatch hu)) exPair_named
    ⟨by decide +kernel, by decide +kernel, by decide +kernel⟩ ht).1 h
  exact ((this.outer (lit! "A") (by decide +kernel)).2 (lit! "A") (by decide +kernel)).1 rfl

/-- An enum with variants without fields. -/
def exVariants (name : String) (first : String) (rest : List String) : EnumMeta :=
  ⟨⟨name, none⟩, [], (first :: rest).map fun v => ⟨⟨⟨v, some v⟩, [], [], false⟩, 0#32⟩, false⟩

theorem exVariants_unclean {name first : String} {rest : List String} (hn : IsName name.toList) (hv : ∀ v ∈ first :: rest, IsName v.toList)
    (hi : IdentEnum ascii (exVariants name first rest)) (hb : ¬ EnumFits name.toList []
      ((exVariants name first rest).variants.map fun v => (variantName ascii v).1)
      ((exVariants name first rest).variants.map fun v => (variantName ascii v).2)) :
    ∃ text, source ascii ⟨lit! "N", []⟩ (.enum (exVariants name first rest)) = some text ∧ ¬ CleanFile text := by
  have hsome : source ascii ⟨lit! "N", []⟩ (.enum (exVariants name first rest)) ≠ none :=
    (C49_generates_iff _ _ _).2 ⟨⟨_, List.mem_cons_self, rfl⟩, fun v hv f hf => by
      obtain ⟨x, hx, rfl⟩ := List.mem_map.1 hv
      cases hf⟩
  obtain ⟨text, ht⟩ := Option.ne_none_iff_exists'.1 hsome
  have he : Named (.enum (exVariants name first rest)) := ⟨hn, fun p hp => (nomatch hp), fun v hm => by
    obtain ⟨x, hx, rfl⟩ := List.mem_map.1 hm
    exact ⟨hv x hx, fun p hp => (nomatch hp), fun f hf => (nomatch hf)⟩⟩
  exact ⟨text, ht, fun h => hb ((C68_enum_clean_iff (setting := ⟨lit! "N", []⟩) ascii_keeps (by decide) (fun u hu => (nomatch hu)) he hi ht).1 h).1⟩

/-- C68. A variant named `Tag` gives a class named as a property of the enum. -/
theorem C68_false_tag : ∃ text, source ascii ⟨lit! "N", []⟩ (.enum (exVariants "Html" "Text" ["Tag"])) = some text ∧ ¬ CleanFile text :=
  exVariants_unclean (by decide +kernel) (by decide +kernel) ⟨by decide +kernel, by decide +kernel, by decide +kernel⟩
    fun h => (h.free.1 (lit! "Tag") (by decide +kernel)).2 (by decide)

/-- C68. A variant may be named as the static method that makes another. -/
theorem C68_false_new : ∃ text, source ascii ⟨lit! "N", []⟩ (.enum (exVariants "Game" "Game1" ["NewGame1"])) = some text ∧ ¬ CleanFile text :=
  exVariants_unclean (by decide +kernel) (by decide +kernel) ⟨by decide +kernel, by decide +kernel, by decide +kernel⟩
    fun h => (h.apart.1 (lit! "NewGame1") (by decide +kernel) (lit! "Game1") (by decide +kernel)).2.1 rfl

/-! ## An example -/

example : StructFits (lit! "Foo") [] (exTable.fields.map (propName ascii)) :=
  ⟨by decide +kernel, by decide +kernel, by decide +kernel⟩
example : IdentStruct ascii exTable := ⟨by decide +kernel, by decide +kernel, by decide +kernel⟩

/-- What is read off the generated text of `Foo` about `other_items: List<Bar>`. -/
example : (source ascii ⟨lit! "Game", []⟩ (.struct exTable)).map (fun t => (outline t).filter fun d => d.2.name == lit! "OnOtherItemsUpdate" ||
      d.2.name == lit! "OtherItems") = some [(8, ⟨lit! "public", .property, lit! "StateList<Bar>", lit! "OtherItems"⟩),
      (8, ⟨lit! "public", .field, lit! "static event EventHandler<FieldUpdateEventArgs<StateList<Bar>, Foo>>", lit! "OnOtherItemsUpdate"⟩)] := by
  decide +kernel

example : EnumFits (lit! "Way") [] (exWay.variants.map fun v => (variantName ascii v).1) (exWay.variants.map fun v => (variantName ascii v).2) :=
  ⟨by decide +kernel, by decide +kernel, by decide +kernel, by decide +kernel⟩
example : ∀ v ∈ exWay.variants, StructFits (variantName ascii v).1 [] (v.ty.fields.map (propName ascii)) := by
  intro v hv
  simp only [exWay, List.mem_cons, List.not_mem_nil, or_false] at hv
  rcases hv with rfl | rfl <;> exact ⟨by decide +kernel, by decide +kernel, by decide +kernel⟩
example : IdentEnum ascii exWay := ⟨by decide +kernel, by decide +kernel, by decide +kernel⟩

end Steit.Gen
