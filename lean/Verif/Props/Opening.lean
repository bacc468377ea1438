import Verif.Lemmas.OpeningGen
import Verif.Props.ClassesShipped

/-!
# C90: how generated files open and close

The order in which the namespaces are given to the generator does not matter, and the file uses exactly them and those of the library.
-/

namespace Steit.Gen

open Steit.Gen.Spec Steit.Conformance

variable {cm : CaseMap} {setting : CSharpSetting} {text : Text} {m : MessageMeta}

theorem source_framed (h : source cm setting m = some text) :
    Framed text setting.namespace' (sortTexts (libraryNamespaces ++ setting.usedNamespaces)) := by
  cases m with
  | struct s =>
    obtain ⟨w, hw, rfl⟩ := Option.map_eq_some_iff.1 h
    unfold genStruct at hw
    split at hw
    · cases hw
    · rename_i fs hf
      cases hw
      have h1 := (openingLines setting []).2 _ wrote_new
      exact (((classLines cm s fs false 1 _).2 _ h1).outdentWriteln (lit! "}")).framed (class_suffix List.suffix_rfl)
  | enum e =>
    obtain ⟨w, hw, rfl⟩ := Option.map_eq_some_iff.1 h
    unfold genEnum at hw
    split at hw
    · cases hw
    · rename_i dflt hd
      split at hw
      · cases hw
      · rename_i w' hv
        cases hw
        obtain ⟨r, h1, h2⟩ := variants_suffix ((enumLines cm e dflt 1 _).2 _ ((openingLines setting []).2 _ wrote_new))
          (enum_suffix List.suffix_rfl) hv
        exact ((h1.outdentWriteln (lit! "}")).outdentWriteln (lit! "}")).framed (suffix_line h2)

/-- C90. A generated file opens with `using` lines for exactly the namespaces of the library and those of the setting, in ascending order,
and with the namespace of the setting, which ends with the file. -/
theorem C90_opening (h : source cm setting m = some text) : ∃ used : List Text, used.Perm (libraryNamespaces ++ setting.usedNamespaces) ∧
    used.Pairwise (· ≤ ·) ∧ Framed text setting.namespace' used :=
  ⟨_, sortTexts_perm _, sortTexts_sorted _, source_framed h⟩

theorem genVariants_setting {setting' : CSharpSetting} (vs : List VariantMeta) (w : Writer) :
    genVariants cm setting vs w = genVariants cm setting' vs w := by
  induction vs generalizing w with
  | nil => rfl
  | cons v vs ih =>
    simp only [genVariants, genStruct, Bool.not_true, Bool.false_eq_true, if_false]
    cases CSharpField.fromMetas cm v.ty.fields with
    | none => rfl
    | some fs => exact ih _

/-- C90. The order in which the setting gives the namespaces does not matter. -/
theorem C90_order {ns : Text} {us vs : List Text} (hp : us.Perm vs) : source cm ⟨ns, us⟩ m = source cm ⟨ns, vs⟩ m := by
  have : sortTexts (libraryNamespaces ++ us) = sortTexts (libraryNamespaces ++ vs) :=
    sorted_unique ((sortTexts_perm _).trans ((hp.append_left _).trans (sortTexts_perm _).symm)) (sortTexts_sorted _) (sortTexts_sorted _)
  have ho (w : Writer) : genFileOpening ⟨ns, us⟩ w = genFileOpening ⟨ns, vs⟩ w := by
    unfold genFileOpening
    simp only [libraryNamespaces] at this
    dsimp only
    rw [this]
  cases m with
  | struct s =>
    unfold source genStruct
    dsimp only
    rw [ho]
  | enum e =>
    unfold source genEnum
    dsimp only
    rw [ho]
    simp only [genVariants_setting (setting := ⟨ns, us⟩) (setting' := ⟨ns, vs⟩)]

/-- The file of `Maybe<T>` in another namespace: both lists of namespaces, sorted. -/
example : ∃ text, source ascii ⟨lit! "Game", [lit! "Zoo", lit! "Steit.Extra", lit! "Abc"]⟩ (.enum exMaybe) = some text ∧
    Framed text (text! "Game") [text! "Abc", text! "Steit.Builtins", text! "Steit.Codec", text! "Steit.Collections", text! "Steit.Extra",
      text! "Steit.State", text! "Steit.State.Event", text! "Zoo"] := by
  obtain ⟨text, ht⟩ : ∃ text, source ascii ⟨lit! "Game", [lit! "Zoo", lit! "Steit.Extra", lit! "Abc"]⟩ (.enum exMaybe) = some text :=
    Option.isSome_iff_exists.1 (by decide +kernel)
  obtain ⟨used, hp, hs, hf⟩ := C90_opening ht
  rw [sorted_unique (vs := [text! "Abc", text! "Steit.Builtins", text! "Steit.Codec", text! "Steit.Collections", text! "Steit.Extra",
      text! "Steit.State", text! "Steit.State.Event", text! "Zoo"]) (hp.trans (by decide +kernel)) hs (by decide +kernel)] at hf
  exact ⟨text, ht, hf⟩

/-- Two orders of the namespaces, one file. -/
example : source ascii ⟨lit! "Game", [lit! "Zoo", lit! "Abc"]⟩ (.enum exMaybe) = source ascii ⟨lit! "Game", [lit! "Abc", lit! "Zoo"]⟩ (.enum exMaybe) :=
  C90_order (.swap _ _ _)

/-- A file that shows the opening: `LogEntry.cs`. -/
example : ∃ used : List Text, used.Perm (libraryNamespaces ++ []) ∧ used.Pairwise (· ≤ ·) ∧ Framed logEntryFile (text! "Steit.State") used :=
  C90_opening (setting := ⟨lit! "Steit.State", []⟩) C69_log_entry_file

end Steit.Gen
