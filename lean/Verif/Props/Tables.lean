import Verif.Lemmas.TablesServe
import Verif.Props.Generated

/-!
# C57: the tables of generated classes

Generated C# classes answer for each tag: its wire type (`GetWireType`), the object nested there (`GetNested`), how to replace it
(`ReplaceAt`); enums also construct variants by tag. `Spec/Tables.lean` reads these `switch`es back off the text of a file.
-/

namespace Steit.Gen

open Steit.Gen.Spec Steit.Spec

/-- C57. The file of a struct holds one class, named as the struct, and it serves the fields: each tag has the wire type Rust writes, the
property to nest and replace is that of the field, what is read is of its type, and tags are those of the path; unknown tags are skipped.
For fields with distinct tags, of types the client supports (`GoodField`), and whatever type arguments turn out to be. -/
theorem C57_struct {cm : CaseMap} (hk : KeepsNames cm) {setting : CSharpSetting} (hn : IsName setting.namespace')
    (hu : ∀ u ∈ setting.usedNamespaces, IsName u) {s : StructMeta} (hs : NamedStruct s) {text : Text}
    (h : source cm setting (.struct s) = some text) : ∃ c, classesOf text = [c] ∧
      c.name = s.name.csharpName.toList ++ typeParams s.typeParams ∧
      ∀ (isState : Text → Bool) (fs : Fields), DescribesFields fs s.fields → GoodFields fs → fs.tags.Nodup →
        StatesTold isState fs s.fields → Serves isState c fs := by
  obtain ⟨fields, hf, hc⟩ := classes_struct hk hn hu hs h
  exact ⟨_, hc, rfl, fun isState fs hd hg ht hst => serves _ (drawnAll hd hf (fromMetas_ok hk hs.fields hf) hg hst) ht⟩

/-- C57. The file of an enum holds a class for the enum, serving its variants, and one for each variant in order, serving its fields. -/
theorem C57_enum {cm : CaseMap} (hk : KeepsNames cm) {setting : CSharpSetting} (hn : IsName setting.namespace')
    (hu : ∀ u ∈ setting.usedNamespaces, IsName u) {e : EnumMeta} (he : Named (.enum e)) {text : Text}
    (h : source cm setting (.enum e) = some text) : ∃ c cs, classesOf text = c :: cs ∧ cs.length = e.variants.length ∧
      c.name = e.name.csharpName.toList ++ typeParams e.typeParams ∧
      (∀ isState, ServesEnum isState c (e.variants.map fun v => (v.tag.toNat, v.ty.name.csharpName.toList))) ∧
      ∀ (i : Nat) (v : VariantMeta), e.variants[i]? = some v → ∃ c, cs[i]? = some c ∧ c.name = v.ty.name.csharpName.toList ∧
        ∀ (isState : Text → Bool) (fs : Fields), DescribesFields fs v.ty.fields → GoodFields fs → fs.tags.Nodup →
          StatesTold isState fs v.ty.fields → Serves isState c fs := by
  obtain ⟨dflt, cs, hd, hv, hc⟩ := classes_enum hk hn hu he h
  refine ⟨_, cs, hc, hv.length, rfl, fun isState => serves_enum _ (fun v hm => (he.2.2 v hm).name) hd, fun i v hi => ?_⟩
  obtain ⟨fields, hf, hget⟩ := hv.get hi
  have hs := he.2.2 v (List.mem_of_getElem? hi)
  exact ⟨_, hget, rfl, fun isState fs hd hg ht hst => serves _ (drawnAll hd hf (fromMetas_ok hk hs.fields hf) hg hst) ht⟩

theorem fieldAt_client : ∀ {fs : Fields} (tag : U32), GoodFields fs →
    fs.csGetWireType tag = (fieldAt fs tag.toNat).map fun (_, _, t) => if wireOf t = 0 then .varint else .sized
  | .nil, _, _ => rfl
  | .cons tag' attrs t fs, tag, ⟨hg, hgs⟩ => by
    simp only [Fields.csGetWireType, fieldAt]
    by_cases h : tag = tag'
    · rw [if_pos h, if_pos (by rw [h])]
      have := csFieldWire_num attrs t hg
      show some (csFieldWire attrs t) = some (if wireOf t = 0 then .varint else .sized)
      rw [← this]
      cases csFieldWire attrs t <;> rfl
    · rw [if_neg h, if_neg fun e => h (BitVec.eq_of_toNat_eq e), fieldAt_client tag hgs, Option.map_map]
      rfl

/-- C57. A class that serves the fields of a message answers about wire types as the model of the client does, of which C45 and C46
speak. -/
theorem C57_client_wire_types {isState : Text → Bool} {c : Class} {fs : Fields} (h : Serves isState c fs) (hg : GoodFields fs) (tag : U32) :
    (c.wire.at tag.toNat).bind (wireAnswer isState) = some (fs.csGetWireType tag) := by
  rw [fieldAt_client tag hg]
  cases hf : fieldAt fs tag.toNat with
  | none => exact (h.unknown _ hf).1
  | some x =>
    obtain ⟨i, attrs, t⟩ := x
    obtain ⟨_, _, _, _, hw, _⟩ := h.known _ _ _ _ hf
    exact hw

/-! ## Fields the client does not support -/

/-- `struct Bad<T> { x: T }`. -/
def exBad : StructMeta := ⟨⟨"Bad", none⟩, ["T"], [⟨⟨"x", none⟩, .typeParam "T", 0#32⟩], false⟩

theorem exBad_named : NamedStruct exBad := by
  refine ⟨by decide +kernel, by simp only [exBad, List.mem_singleton, forall_eq]; decide +kernel, ?_⟩
  intro f hf
  simp only [exBad, List.mem_cons, List.not_mem_nil, or_false] at hf
  subst hf
  exact ⟨by decide +kernel, (by decide +kernel : IsName "T".toList)⟩

/-- C57. The condition on fields is needed: for a field of a type parameter where a string is put, the generated class says varint, while
Rust writes a sized value. -/
theorem C57_false_generic_string : ∃ (s : StructMeta) (fs : Fields) (text : Text) (c : Class), NamedStruct s ∧ DescribesFields fs s.fields ∧
    fs.tags.Nodup ∧ StatesTold (fun _ => false) fs s.fields ∧ source ascii ⟨lit! "N", []⟩ (.struct s) = some text ∧ classesOf text = [c] ∧
    ¬ Serves (fun _ => false) c fs := by
  have hsome : source ascii ⟨lit! "N", []⟩ (.struct exBad) ≠ none :=
    (C49_generates_iff _ _ _).2 fun f hf => by
      simp only [exBad, List.mem_cons, List.not_mem_nil, or_false] at hf
      subst hf
      trivial
  obtain ⟨text, ht⟩ := Option.ne_none_iff_exists'.1 hsome
  obtain ⟨fields, hf, hc⟩ := classes_struct ascii_keeps (by decide) (fun u hu => by cases hu) exBad_named ht
  refine ⟨exBad, .cons 0#32 { param := true } .string .nil, text, _, exBad_named, ⟨_, _, rfl, rfl, ⟨"T", rfl⟩, rfl⟩, by decide,
    ⟨fun _ _ => rfl, trivial⟩, ht, hc, fun h => ?_⟩
  obtain ⟨_, _, _, _, hw, _⟩ := h.known 0 0 _ _ rfl
  cases hf
  revert hw
  decide +kernel

/-! ## An example -/

/-- `struct Foo { n: u32, other_items: List<Bar>, name: String }`, with tags 0, 7 and 300. -/
def exTable : StructMeta := ⟨⟨"Foo", none⟩, [], [⟨⟨"n", none⟩, .type (.primitive ⟨"u32", some "UInt32"⟩ .varint), 0#32⟩,
  ⟨⟨"other_items", none⟩, .type (.ref ⟨"List", some "StateList"⟩ (.cons (.type (.ref ⟨"Bar", none⟩ .nil)) .nil)), 7#32⟩,
  ⟨⟨"name", none⟩, .type (.primitive ⟨"String", some "String"⟩ .sized), 300#32⟩], false⟩

/-- The fields of `Foo`. -/
def exTableFields : Fields := .cons 0#32 {} (.uint .w32) (.cons 7#32 {} (.list (.struct true true .nil)) (.cons 300#32 {} .string .nil))

example : DescribesFields exTableFields exTable.fields := ⟨_, _, rfl, rfl, rfl, _, _, rfl, rfl, ⟨_, _, rfl⟩, _, _, rfl, rfl, rfl, rfl⟩
example : GoodFields exTableFields ∧ exTableFields.tags.Nodup ∧ StatesTold (fun _ => true) exTableFields exTable.fields :=
  ⟨⟨trivial, trivial, trivial, trivial⟩, by decide, fun _ h => (nomatch h), fun _ h => (nomatch h), fun _ h => (nomatch h), trivial⟩
example : NamedStruct exTable := by
  refine ⟨by decide +kernel, fun p hp => (nomatch hp), ?_⟩
  intro f hf
  simp only [exTable, List.mem_cons, List.not_mem_nil, or_false] at hf
  rcases hf with rfl | rfl | rfl
  · exact ⟨by decide +kernel, fun n hn => by cases hn; decide +kernel⟩
  · exact ⟨by decide +kernel, (by decide +kernel : IsName "StateList".toList), ⟨(by decide +kernel : IsName "Bar".toList), trivial⟩, trivial⟩
  · exact ⟨by decide +kernel, fun n hn => by cases hn; decide +kernel⟩

/-- Read off the generated text of `Foo`. -/
example : (source ascii ⟨lit! "Game", []⟩ (.struct exTable)).map (fun t => (classesOf t).map fun c =>
      ((c.replace.at 7).bind replaceAnswer, (c.wire.at 300).bind (wireAnswer fun _ => true), (c.nested.at 8).bind nestedAnswer)) =
    some [(some (.assign ⟨lit! "OtherItems", 7, .state (lit! "StateList<Bar>") 7, lit! "OtherItems", lit! "OnOtherItemsUpdate"⟩),
      some (some .sized), some .null)] := by decide +kernel

/-- `enum Way { Here, To { x: u8 } }`, with tags 0 and 3. -/
def exWay : EnumMeta := ⟨⟨"Way", none⟩, [], [⟨⟨⟨"Way_Here", some "Here"⟩, [], [], false⟩, 0#32⟩,
  ⟨⟨⟨"Way_To", some "To"⟩, [], [⟨⟨"x", none⟩, .type (.primitive ⟨"u8", some "Byte"⟩ .varint), 1#32⟩], false⟩, 3#32⟩], false⟩

theorem exWay_named : Named (.enum exWay) := by
  refine ⟨by decide +kernel, fun p hp => (nomatch hp), ?_⟩
  intro v hv
  simp only [exWay, List.mem_cons, List.not_mem_nil, or_false] at hv
  rcases hv with rfl | rfl
  · exact ⟨by decide +kernel, fun p hp => (nomatch hp), fun f hf => (nomatch hf)⟩
  · refine ⟨by decide +kernel, fun p hp => (nomatch hp), fun f hf => ?_⟩
    simp only [List.mem_cons, List.not_mem_nil, or_false] at hf
    subst hf
    exact ⟨by decide +kernel, fun n hn => by cases hn; decide +kernel⟩

/-- What is read off the generated text of `Way`: an unknown tag makes the default variant. -/
example : ∃ text c cs, source ascii ⟨lit! "Game", []⟩ (.enum exWay) = some text ∧ classesOf text = c :: cs ∧ c.name = lit! "Way" ∧
    cs.map (·.name) = [lit! "Here", lit! "To"] ∧ (c.ctor.at 3).bind newVariant? = some (lit! "To", 3) ∧
    (c.ctor.at 4).bind newVariant? = some (lit! "Here", 0) ∧ (c.replace.at 3).bind readVariant? = some (3, lit! "To", 3) := by
  have hsome : source ascii ⟨lit! "Game", []⟩ (.enum exWay) ≠ none :=
    (C49_generates_iff _ _ _).2 ⟨⟨_, List.mem_cons_self, rfl⟩, fun v hv f hf => by
      simp only [exWay, List.mem_cons, List.not_mem_nil, or_false] at hv
      rcases hv with rfl | rfl
      · cases hf
      · simp only [List.mem_cons, List.not_mem_nil, or_false] at hf
        subst hf
        exact fun h => (nomatch h)⟩
  obtain ⟨text, ht⟩ := Option.ne_none_iff_exists'.1 hsome
  obtain ⟨c, cs, hc, hl, hn, he, hv⟩ := C57_enum ascii_keeps (by decide) (fun u hu => by cases hu) exWay_named ht
  obtain ⟨c0, h0, hn0, _⟩ := hv 0 _ rfl
  obtain ⟨c1, h1, hn1, _⟩ := hv 1 _ rfl
  have hcs : cs = [c0, c1] := by
    match cs, hl, h0, h1 with
    | [a, b], _, h0, h1 => cases h0; cases h1; rfl
  obtain ⟨_, hnew, hread⟩ := (he fun _ => true).known 3 (lit! "To") (by decide +kernel)
  obtain ⟨d, hd, _, hdef, _⟩ := (he fun _ => true).unknown 4 (by decide +kernel)
  refine ⟨text, c, cs, ht, hc, hn.trans (by decide +kernel), ?_, hnew, ?_, hread⟩
  · rw [hcs, List.map_cons, List.map_cons, List.map_nil, hn0, hn1]
    decide +kernel
  · rw [hdef]
    have : some d = some (lit! "Here") := hd.symm.trans (by decide +kernel)
    cases this
    rfl

end Steit.Gen
