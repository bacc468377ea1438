import Verif.Lemmas.ClearingGen
import Verif.Props.ClassesShipped

/-!
# C91: clearing event handlers

The events are those that C68 finds in the class, one for each property; C57 says that replacing a field raises the event of its property.
-/

namespace Steit.Gen

open Steit.Gen.Spec Steit.Conformance

variable {cm : CaseMap} {setting : CSharpSetting} {text : Text}

/-- C91. In the class of a struct, each property has a method that clears its event, and there is one that clears the events of all. -/
theorem C91_struct {s : StructMeta} (h : source cm setting (.struct s) = some text) : Clears text 1 (s.fields.map (propName cm)) := by
  obtain ⟨w, hw, rfl⟩ := Option.map_eq_some_iff.1 h
  unfold genStruct at hw
  split at hw
  · cases hw
  · rename_i fs hf
    cases hw
    have h1 := (openingLines setting []).2 _ wrote_new
    have h2 := ((classLines cm s fs false 1 _).2 _ h1).outdentWriteln (lit! "}")
    rw [← fromMetas_names hf]
    refine ⟨fun p hp => ?_, h2.has (infix_line class_clearEvery)⟩
    obtain ⟨f, hm, rfl⟩ := List.mem_map.1 hp
    rw [List.length_map]
    exact h2.has (infix_line (class_clearOne hm))

/-- C91. In the file of an enum, the method of the enum clears its event, and the classes of the variants clear theirs as those of
structs do. -/
theorem C91_enum {e : EnumMeta} (h : source cm setting (.enum e) = some text) :
    ClearsEnum text 1 ∧ ∀ v ∈ e.variants, Clears text 2 (v.ty.fields.map (propName cm)) := by
  obtain ⟨w, hw, rfl⟩ := Option.map_eq_some_iff.1 h
  unfold genEnum at hw
  split at hw
  · cases hw
  · rename_i dflt hd
    split at hw
    · cases hw
    · rename_i w' hv
      cases hw
      obtain ⟨r, h1, h2, h3⟩ := variants_clear ((enumLines cm e dflt 1 _).2 _ ((openingLines setting []).2 _ wrote_new)) hv
      have h4 := (h1.outdentWriteln (lit! "}")).outdentWriteln (lit! "}")
      have up {body : List Text} (hb : body.reverse <:+: r) := h4.has (infix_line (infix_line hb))
      refine ⟨up (h2 _ enum_clear), fun v hm => ⟨fun p hp => ?_, up (h3 v hm).2⟩⟩
      rw [List.length_map]
      exact up ((h3 v hm).1 p hp)

/-- `LogEntry.cs`: the enum, its variant `Update` with two fields and its variant `ListPop` with one. -/
example : ClearsEnum logEntryFile 1 ∧ Clears logEntryFile 2 [text! "FlattenPath", text! "Value"] ∧ Clears logEntryFile 2 [text! "FlattenPath"] := by
  obtain ⟨h1, h2⟩ := C91_enum (e := logEnum) C69_log_entry_file
  obtain ⟨u, hu, eu⟩ : ∃ v ∈ logEnum.variants, v.ty.fields.map (propName ascii) = [text! "FlattenPath", text! "Value"] := by decide +kernel
  obtain ⟨v, hv, ev⟩ : ∃ v ∈ logEnum.variants, v.ty.fields.map (propName ascii) = [text! "FlattenPath"] := by decide +kernel
  exact ⟨h1, eu ▸ h2 u hu, ev ▸ h2 v hv⟩

/-- The file of `struct Pair<A, B>`. -/
example : ∃ text, source ascii ⟨lit! "N", []⟩ (exDecls.message .pair) = some text ∧
    Has text [text! "        public static void ClearFirstUpdateHandlers() { OnFirstUpdate = null; }"] := by
  obtain ⟨text, ht⟩ := exDecls_source .pair
  obtain ⟨s, hs, e⟩ : ∃ s, exDecls.message .pair = .struct s ∧ s.fields.map (propName ascii) = [text! "First", text! "Rest"] := ⟨_, rfl, by decide +kernel⟩
  have h := C91_struct (hs ▸ ht)
  rw [e] at h
  exact ⟨text, ht, h.1 _ (.head _)⟩

end Steit.Gen
