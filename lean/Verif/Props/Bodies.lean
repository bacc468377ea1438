import Verif.Lemmas.BodiesGen
import Verif.Props.ClassesShipped

/-!
# C69: what is not read off the text

`Model/Classes.lean` reads the `switch`es of generated classes and takes it for granted what the other methods do. They do: whatever the
declaration, these are their lines.
-/

namespace Steit.Gen

open Steit.Gen.Spec Steit.Conformance

variable {cm : CaseMap} {setting : CSharpSetting} {text : Text}

/-- C69. In the file generated for a struct, `Deserialize`, `MaybeNotify` and the methods for lists and maps are as
`Model/Classes.lean` takes them to be. -/
theorem C69_struct_bodies {s : StructMeta} (h : source cm setting (.struct s) = some text) :
    StructBodies text 1 (text! "public") (s.name.csharpName.toList ++ typeParams s.typeParams) := by
  obtain ⟨w, hw, rfl⟩ := Option.map_eq_some_iff.1 h
  unfold genStruct at hw
  split at hw
  · cases hw
  · rename_i fs hf
    cases hw
    have h1 := (openingLines setting []).2 _ wrote_new
    have h2 := ((classLines cm s fs false 1 _).2 _ h1).outdentWriteln (lit! "}")
    exact ⟨⟨_, h2.has (infix_line (class_deserialize (b := false)))⟩, h2.has (infix_line (class_notify (b := false)))⟩

/-- C69. In the file generated for an enum, `Deserialize`, `GetNested`, `UpdateAndNotify` and the methods for lists and maps are as
`Model/Classes.lean` takes them to be; so are those of all its variants. -/
theorem C69_enum_bodies {e : EnumMeta} (h : source cm setting (.enum e) = some text) :
    EnumBodies text 1 (e.name.csharpName.toList ++ typeParams e.typeParams) ∧
    ∀ v ∈ e.variants, StructBodies text 2 (text! "internal") v.ty.name.csharpName.toList := by
  obtain ⟨w, hw, rfl⟩ := Option.map_eq_some_iff.1 h
  unfold genEnum at hw
  split at hw
  · cases hw
  · rename_i dflt hd
    split at hw
    · cases hw
    · rename_i w' hv
      cases hw
      obtain ⟨r, h1, h2, h3⟩ := variants_infix ((enumLines cm e dflt 1 _).2 _ ((openingLines setting []).2 _ wrote_new)) hv
      have h4 := (h1.outdentWriteln (lit! "}")).outdentWriteln (lit! "}")
      have up {body : List Text} (hb : body.reverse <:+: r) := h4.has (infix_line (infix_line hb))
      exact ⟨⟨⟨_, up (h2 _ enum_deserialize)⟩, up (h2 _ enum_nested), up (h2 _ enum_update)⟩,
        fun v hm => ⟨⟨_, up (h3 v hm).1⟩, up (h3 v hm).2⟩⟩

/-- `LogEntry.cs`: the class of the enum and the class of `MapRemove`. -/
example : EnumBodies logEntryFile 1 (text! "LogEntry") ∧ StructBodies logEntryFile 2 (text! "internal") (text! "MapRemove") := by
  obtain ⟨h1, h2⟩ := C69_enum_bodies (e := logEnum) C69_log_entry_file
  obtain ⟨v, hv, e⟩ : ∃ v ∈ logEnum.variants, v.ty.name.csharpName.toList = text! "MapRemove" := by decide +kernel
  rw [show logEnum.name.csharpName.toList ++ typeParams logEnum.typeParams = text! "LogEntry" by decide +kernel] at h1
  exact ⟨h1, e ▸ h2 v hv⟩

/-- The file of `struct Pair<A, B>`. -/
example : ∃ text, source ascii ⟨lit! "N", []⟩ (exDecls.message .pair) = some text ∧ StructBodies text 1 (text! "public") (text! "Pair<A, B>") := by
  obtain ⟨text, ht⟩ := exDecls_source .pair
  obtain ⟨s, hs, e⟩ : ∃ s, exDecls.message .pair = .struct s ∧ s.name.csharpName.toList ++ typeParams s.typeParams = text! "Pair<A, B>" :=
    ⟨_, rfl, by decide +kernel⟩
  exact ⟨text, ht, e ▸ C69_struct_bodies (hs ▸ ht)⟩

end Steit.Gen
