import Verif.Lemmas.BodiesGen
import Verif.Props.ClassesShipped
import Verif.Props.Tables

/-!
# C89: constants, properties and static constructors of generated enums

What C# programs use to tell variants apart and to make them: `‹Variant›Tag`, `‹Variant›Variant` and `New‹Variant›`.
-/

namespace Steit.Gen

open Steit.Gen.Spec Steit.Conformance

variable {cm : CaseMap} {setting : CSharpSetting} {text : Text} {e : EnumMeta}

/-- C89. The file of an enum declares, right after the line that opens the class and in the order of the variants, one constant per variant:
its number is the variant's tag. The properties for variants cast to the class of the variant, and the static constructors pass its tag. -/
theorem C89_enum_members (h : source cm setting (.enum e) = some text) : ∃ digits : VariantMeta → Text,
    (∀ v, number? (digits v) = some v.tag.toNat) ∧
    let vs := e.variants.map fun v => ((variantName cm v).1, (variantName cm v).2, digits v)
    Has text (constantLines 1 (e.name.csharpName.toList ++ typeParams e.typeParams) vs) ∧ Has text (variantLinesOf 1 vs) ∧
    Has text (newLines 1 e.name.csharpName.toList vs) := by
  obtain ⟨w, hw, rfl⟩ := Option.map_eq_some_iff.1 h
  unfold genEnum at hw
  split at hw
  · cases hw
  · rename_i dflt hd
    split at hw
    · cases hw
    · rename_i w' hv
      cases hw
      obtain ⟨r, h1, h2, _⟩ := variants_infix ((enumLines cm e dflt 1 _).2 _ ((openingLines setting []).2 _ wrote_new)) hv
      have h4 := (h1.outdentWriteln (lit! "}")).outdentWriteln (lit! "}")
      have up {body : List Text} (hb : body.reverse <:+: r) := h4.has (infix_line (infix_line hb))
      exact ⟨fun v => decimal v.tag, fun v => number_decimal v.tag, up (h2 _ enum_constants), up (h2 _ enum_properties), up (h2 _ enum_news)⟩

theorem lookup_variantTag {vs : List VariantMeta} (ht : (vs.map fun v => v.tag).Nodup) {v : VariantMeta} (hv : v ∈ vs) :
    (vs.map fun v => (v.tag.toNat, v.ty.name.csharpName.toList)).lookup v.tag.toNat = some v.ty.name.csharpName.toList := by
  induction vs with
  | nil => cases hv
  | cons u vs ih =>
    simp only [List.map_cons, List.nodup_cons, List.mem_map, not_exists, not_and] at ht
    rw [List.map_cons, List.lookup_cons]
    rcases List.mem_cons.1 hv with rfl | hv
    · rw [beq_self_eq_true]
    · have : (v.tag.toNat == u.tag.toNat) = false := by
        rw [beq_eq_false_iff_ne]
        exact fun h => ht.1 v hv (BitVec.eq_of_toNat_eq h)
      rw [this]
      exact ih ht.2 hv

/-- C89. The class constructed with the number that `New‹Variant›` passes and `‹Variant›Tag` stands for is the class to which
`‹Variant›Variant` casts. -/
theorem C89_enum_makes (hk : KeepsNames cm) (hn : IsName setting.namespace') (hu : ∀ u ∈ setting.usedNamespaces, IsName u)
    (he : Named (.enum e)) (ht : (e.variants.map fun v => v.tag).Nodup) (h : source cm setting (.enum e) = some text) :
    ∃ c cs, classesOf text = c :: cs ∧ ∃ digits : VariantMeta → Text,
      (let vs := e.variants.map fun v => ((variantName cm v).1, (variantName cm v).2, digits v)
       Has text (constantLines 1 (e.name.csharpName.toList ++ typeParams e.typeParams) vs) ∧ Has text (variantLinesOf 1 vs) ∧
       Has text (newLines 1 e.name.csharpName.toList vs)) ∧
      ∀ v ∈ e.variants, number? (digits v) = some v.tag.toNat ∧
        (c.ctor.at v.tag.toNat).bind newVariant? = some ((variantName cm v).1, v.tag.toNat) ∧
        (c.replace.at v.tag.toNat).bind readVariant? = some (v.tag.toNat, (variantName cm v).1, v.tag.toNat) := by
  obtain ⟨c, cs, hc, _, _, hs, _⟩ := C57_enum hk hn hu he h
  obtain ⟨digits, hd, hl⟩ := C89_enum_members h
  refine ⟨c, cs, hc, digits, hl, fun v hv => ⟨hd v, ?_⟩⟩
  exact ((hs fun _ => false).known _ _ (lookup_variantTag ht hv)).2

/-- `LogEntry.cs`: the constant of `MapRemove` is the tag Rust gives it, and `NewMapRemove` makes a `MapRemove`. -/
example : ∃ c cs, classesOf logEntryFile = c :: cs ∧ (c.ctor.at 12).bind newVariant? = some (text! "MapRemove", 12) ∧
    ∃ vs : List (Text × Text × Text), vs.map (fun v => (v.2.1, number? v.2.2)) =
      [(text! "Update", some 0), (text! "ListPush", some 8), (text! "ListPop", some 9), (text! "MapRemove", some 12)] ∧
    Has logEntryFile (constantLines 1 (text! "LogEntry") vs) ∧ Has logEntryFile (newLines 1 (text! "LogEntry") vs) := by
  obtain ⟨c, cs, hc, digits, ⟨h1, _, h3⟩, hm⟩ := C89_enum_makes (e := logEnum) (setting := ⟨lit! "Steit.State", []⟩) ascii_keeps (by decide)
    (fun u hu => (nomatch hu)) logDecls_named (by decide +kernel) C69_log_entry_file
  obtain ⟨v, hv, et, en⟩ : ∃ v ∈ logEnum.variants, v.tag.toNat = 12 ∧ (variantName ascii v).1 = text! "MapRemove" := by decide +kernel
  have h := (hm v hv).2.1
  rw [et, en] at h
  rw [show logEnum.name.csharpName.toList ++ typeParams logEnum.typeParams = text! "LogEntry" by decide +kernel] at h1
  rw [show logEnum.name.csharpName.toList = text! "LogEntry" by decide +kernel] at h3
  refine ⟨c, cs, hc, h, _, ?_, h1, h3⟩
  rw [List.map_map, List.map_congr_left (g := fun v => ((variantName ascii v).2, some v.tag.toNat)) fun v hv => ?_]
  · decide +kernel
  · exact congrArg _ (hm v hv).1

/-- `Maybe.cs`: the file of an enum with a type parameter. -/
example : ∃ vs : List (Text × Text × Text), vs.map (fun v => (v.1, v.2.1, number? v.2.2)) =
      [(text! "None", text! "None", some 0), (text! "Some", text! "Some", some 1)] ∧
    Has maybeFile (constantLines 1 (text! "Maybe<T>") vs) ∧ Has maybeFile (variantLinesOf 1 vs) := by
  obtain ⟨digits, hd, h1, h2, _⟩ := C89_enum_members (e := exMaybe) C69_maybe_file
  rw [show exMaybe.name.csharpName.toList ++ typeParams exMaybe.typeParams = text! "Maybe<T>" by decide +kernel] at h1
  refine ⟨_, ?_, h1, h2⟩
  rw [List.map_map, List.map_congr_left (g := fun v => ((variantName ascii v).1, (variantName ascii v).2, some v.tag.toNat)) fun v _ => ?_]
  · decide +kernel
  · exact congrArg (fun n => ((variantName ascii v).1, (variantName ascii v).2, n)) (hd v)

end Steit.Gen
