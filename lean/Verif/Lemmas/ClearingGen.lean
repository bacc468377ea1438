import Verif.Lemmas.BodiesGen
import Verif.Lemmas.MembersGen
import Verif.Spec.Clearing

/-!
# Methods that clear event handlers, found in the lines
-/

namespace Steit.Gen

open Conformance Steit.Gen.Spec

variable {ls : List Text}

theorem clear_one {n : Nat} {many : Bool} {f : CSharpField} : clearLines n many ls f = (clearOne n many f.name).reverse ++ ls := by
  unfold clearLines clearOne
  cases many
  · rfl
  · simp [lineAt, deep, fmt, Frag.text]

theorem clear_here {n : Nat} {many : Bool} {fs : List CSharpField} {f : CSharpField} (hf : f ∈ fs) :
    (clearOne n many f.name).reverse <:+: fs.foldl (clearLines n many) ls := by
  induction fs generalizing ls with
  | nil => cases hf
  | cons g fs ih =>
    rcases List.mem_cons.1 hf with rfl | hf
    · exact infix_clear (xs := fs) (infix_here clear_one)
    · exact ih hf

theorem clearEvery_here {n : Nat} {fs : List CSharpField} : (clearEvery n (fs.map (·.name))).reverse <:+: clearAllLines n fs ls := by
  unfold clearEvery clearAllLines
  cases fs with
  | nil => exact infix_here rfl
  | cons f fs =>
    rw [if_neg (by simp)]
    exact infix_block (f := fun p => deep (n + 1) [text! "On", p, text! "Update = null;"]) (g := fun f : CSharpField => f.name)

theorem class_clearOne {cm : CaseMap} {s : StructMeta} {fs : List CSharpField} {b : Bool} {n : Nat} {f : CSharpField} (hf : f ∈ fs) :
    (clearOne (n + 1) (decide (1 < fs.length)) f.name).reverse <:+: (classLines cm s fs b n ls).1 := by
  unfold classLines
  dsimp only
  repeat first | exact clear_here hf | down

theorem class_clearEvery {cm : CaseMap} {s : StructMeta} {fs : List CSharpField} {b : Bool} {n : Nat} :
    (clearEvery (n + 1) (fs.map (·.name))).reverse <:+: (classLines cm s fs b n ls).1 := by
  unfold classLines
  dsimp only
  repeat first | exact clearEvery_here | down

theorem enum_clear {cm : CaseMap} {e : EnumMeta} {dflt : VariantMeta} {n : Nat} : [
    deep (n + 1) [text! "public static void ClearUpdateHandlers() {"],
    deep (n + 2) [text! "OnUpdate = null;"],
    deep (n + 1) [text! "}"]].reverse <:+: (enumLines cm e dflt n ls).1 := by
  unfold enumLines
  dsimp only
  repeat first | exact infix_here rfl | down

theorem variants_clear {cm : CaseMap} {setting : CSharpSetting} {n : Nat} {vs : List VariantMeta} {w w' : Writer} (h : Wrote w n ls)
    (hw : genVariants cm setting vs w = some w') : ∃ r, Wrote w' n r ∧ (∀ seg : List Text, seg <:+: ls → seg <:+: r) ∧
      ∀ v ∈ vs, (∀ p ∈ v.ty.fields.map (propName cm), (clearOne (n + 1) (decide (1 < v.ty.fields.length)) p).reverse <:+: r) ∧
        (clearEvery (n + 1) (v.ty.fields.map (propName cm))).reverse <:+: r := by
  induction vs generalizing w ls with
  | nil => cases hw; exact ⟨ls, h, fun _ h => h, fun _ h => nomatch h⟩
  | cons v vs ih =>
    simp only [genVariants, genStruct, Bool.not_true, Bool.false_eq_true, if_false] at hw
    cases hf : CSharpField.fromMetas cm v.ty.fields with
    | none => simp only [hf] at hw; cases hw
    | some fs =>
      simp only [hf] at hw
      obtain ⟨r, h1, h2, h3⟩ := ih ((classLines cm v.ty fs true n _).2 _ ((h.newline.writeln _).newline)) hw
      refine ⟨r, h1, fun seg hs => h2 _ (class_infix (infix_line (infix_line (infix_line hs)))), fun u hu => ?_⟩
      rcases List.mem_cons.1 hu with rfl | hu
      · have hl : fs.length = u.ty.fields.length := by simpa using congrArg List.length (fromMetas_names hf)
        rw [← fromMetas_names hf, ← hl]
        refine ⟨fun p hp => ?_, h2 _ class_clearEvery⟩
        obtain ⟨f, hf, rfl⟩ := List.mem_map.1 hp
        exact h2 _ (class_clearOne hf)
      · exact h3 u hu

end Steit.Gen
