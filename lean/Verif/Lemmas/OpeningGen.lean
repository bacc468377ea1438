import Verif.Lemmas.BodiesGen
import Verif.Spec.Opening

/-!
# The opening of a file stays in front
-/

namespace Steit.Gen

open Conformance Spec

variable {seg ls : List Text}

theorem suffix_line {l : Text} (h : seg <:+ ls) : seg <:+ l :: ls := h.trans (List.suffix_cons l ls)

theorem suffix_ite {c : Prop} [Decidable c] {l : Text} (h : seg <:+ ls) : seg <:+ if c then l :: ls else ls := by
  split
  · exact suffix_line h
  · exact h

theorem suffix_fold {α : Type} {f : List Text → α → List Text} (hf : ∀ ls x, ls <:+ f ls x) {xs : List α} (h : seg <:+ ls) :
    seg <:+ xs.foldl f ls := by
  induction xs generalizing ls with
  | nil => exact h
  | cons x xs ih => exact ih (h.trans (hf ls x))

theorem suffix_lines {α : Type} {f : α → Text} {xs : List α} (h : seg <:+ ls) : seg <:+ xs.foldl (fun ls x => f x :: ls) ls :=
  suffix_fold (fun ls _ => List.suffix_cons _ ls) h

theorem suffix_some {α : Type} {n : Nat} {a b : α → List Frag} {t : α → Option Text} {xs : List α} (h : seg <:+ ls) :
    seg <:+ xs.foldl (fun ls x => someLine n (a x) (t x) (b x) ls) ls :=
  suffix_fold (fun ls x => by
    unfold someLine
    split
    · exact List.suffix_rfl
    · exact List.suffix_cons _ ls) h

theorem suffix_clear {n : Nat} {many : Bool} {xs : List CSharpField} (h : seg <:+ ls) : seg <:+ xs.foldl (clearLines n many) ls :=
  suffix_fold (fun ls x => by
    unfold clearLines
    split
    · exact suffix_line List.suffix_rfl
    · exact suffix_line (suffix_line (suffix_line List.suffix_rfl))) h

theorem suffix_clearAll {n : Nat} {xs : List CSharpField} (h : seg <:+ ls) : seg <:+ clearAllLines n xs ls := by
  unfold clearAllLines
  split
  · exact suffix_line h
  · exact suffix_line (suffix_lines (suffix_line h))

/-- Leave out lines that come later. -/
macro "later" : tactic => `(tactic| with_reducible first
    | assumption
    | apply suffix_line
    | apply suffix_ite
    | apply suffix_clearAll
    | apply suffix_clear
    | apply suffix_lines
    | apply suffix_some)

theorem class_suffix {cm : CaseMap} {s : StructMeta} {fs : List CSharpField} {b : Bool} {n : Nat} (h : seg <:+ ls) :
    seg <:+ (classLines cm s fs b n ls).1 := by
  unfold classLines
  dsimp only
  repeat later

theorem enum_suffix {cm : CaseMap} {e : EnumMeta} {dflt : VariantMeta} {n : Nat} (h : seg <:+ ls) :
    seg <:+ (enumLines cm e dflt n ls).1 := by
  unfold enumLines
  dsimp only
  repeat later

theorem variants_suffix {cm : CaseMap} {setting : CSharpSetting} {n : Nat} {vs : List VariantMeta} {w w' : Writer} (h : Wrote w n ls)
    (hs : seg <:+ ls) (hw : genVariants cm setting vs w = some w') : ∃ r, Wrote w' n r ∧ seg <:+ r := by
  induction vs generalizing w ls with
  | nil => cases hw; exact ⟨ls, h, hs⟩
  | cons v vs ih =>
    simp only [genVariants, genStruct, Bool.not_true, Bool.false_eq_true, if_false] at hw
    cases hf : CSharpField.fromMetas cm v.ty.fields with
    | none => simp only [hf] at hw; cases hw
    | some fs =>
      simp only [hf] at hw
      exact ih ((classLines cm v.ty fs true n _).2 _ ((h.newline.writeln _).newline)) (class_suffix (suffix_line (suffix_line (suffix_line hs)))) hw

theorem fold_lines {α : Type} {f : α → Text} {xs : List α} : xs.foldl (fun ls x => f x :: ls) ls = (xs.map f).reverse ++ ls := by
  induction xs generalizing ls with
  | nil => rfl
  | cons x xs ih => simp [ih]

theorem opening_lines (setting : CSharpSetting) : (openingLines setting []).1.reverse =
    [text! "using System;", []] ++ (sortTexts (libraryNamespaces ++ setting.usedNamespaces)).map (fun u => text! "using " ++ u ++ text! ";") ++
      [[], text! "namespace " ++ setting.namespace' ++ text! " {"] := by
  unfold openingLines
  dsimp only
  rw [fold_lines]
  simp [lineAt, fmt, Frag.text, libraryNamespaces]

theorem Wrote.framed {w : Writer} {setting : CSharpSetting} (h : Wrote w 0 (lineAt 0 (lit! "}") :: ls)) (hs : (openingLines setting []).1 <:+ ls) :
    Framed w.out setting.namespace' (sortTexts (libraryNamespaces ++ setting.usedNamespaces)) := by
  obtain ⟨p, rfl⟩ := hs
  refine ⟨unlines p.reverse, ?_⟩
  rw [← opening_lines, h.out]
  simp only [List.reverse_cons, List.reverse_append, unlines_append, List.append_assoc]
  rfl

theorem insertSorted_perm (t : Text) (us : List Text) : (insertSorted t us).Perm (t :: us) := by
  induction us with
  | nil => exact .refl _
  | cons u us ih =>
    unfold insertSorted
    split
    · exact .refl _
    · exact (ih.cons u).trans (.swap t u us)

theorem sortTexts_perm (ts : List Text) : (sortTexts ts).Perm ts := by
  induction ts with
  | nil => exact .refl _
  | cons t ts ih => exact (insertSorted_perm t _).trans (ih.cons t)

theorem insertSorted_sorted (t : Text) {us : List Text} (h : us.Pairwise (· ≤ ·)) : (insertSorted t us).Pairwise (· ≤ ·) := by
  induction us with
  | nil => exact List.pairwise_singleton _ _
  | cons u us ih =>
    have hu := List.pairwise_cons.1 h
    unfold insertSorted
    split
    · rename_i htu
      refine List.pairwise_cons.2 ⟨fun x hx => ?_, h⟩
      rcases List.mem_cons.1 hx with rfl | hx
      · exact htu
      · exact List.le_trans htu (hu.1 x hx)
    · rename_i htu
      refine List.pairwise_cons.2 ⟨fun x hx => ?_, ih hu.2⟩
      rcases List.mem_cons.1 ((insertSorted_perm t us).subset hx) with rfl | hx
      · exact (List.le_total u x).resolve_right htu
      · exact hu.1 x hx

theorem sortTexts_sorted (ts : List Text) : (sortTexts ts).Pairwise (· ≤ ·) := by
  induction ts with
  | nil => exact .nil
  | cons t ts ih => exact insertSorted_sorted t ih

theorem sorted_unique {us vs : List Text} (hp : us.Perm vs) (hu : us.Pairwise (· ≤ ·)) (hv : vs.Pairwise (· ≤ ·)) : us = vs :=
  hp.eq_of_pairwise (fun _ _ _ _ h1 h2 => List.le_antisymm h1 h2) hu hv

end Steit.Gen
