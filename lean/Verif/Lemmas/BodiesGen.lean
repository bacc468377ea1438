import Verif.Lemmas.LinesGen
import Verif.Spec.Bodies

/-!
# Bodies of generated methods, found in the lines
-/

namespace Steit.Gen

open Conformance Spec

variable {seg ls : List Text}

theorem infix_here {rest ls : List Text} (h : ls = seg ++ rest) : seg <:+: ls := ⟨[], rest, h.symm⟩

theorem infix_line {l : Text} (h : seg <:+: ls) : seg <:+: l :: ls := h.trans (List.suffix_cons l ls).isInfix

theorem infix_ite {c : Prop} [Decidable c] {l : Text} (h : seg <:+: ls) : seg <:+: if c then l :: ls else ls := by
  split
  · exact infix_line h
  · exact h

theorem infix_lines {α : Type} {f : α → Text} {xs : List α} (h : seg <:+: ls) : seg <:+: xs.foldl (fun ls x => f x :: ls) ls := by
  induction xs generalizing ls with
  | nil => exact h
  | cons x xs ih => exact ih (infix_line h)

theorem infix_some {α : Type} {n : Nat} {a b : α → List Frag} {t : α → Option Text} {xs : List α} (h : seg <:+: ls) :
    seg <:+: xs.foldl (fun ls x => someLine n (a x) (t x) (b x) ls) ls := by
  induction xs generalizing ls with
  | nil => exact h
  | cons x xs ih =>
    refine ih ?_
    unfold someLine
    dsimp only
    split
    · exact h
    · exact infix_line h

theorem infix_clear {n : Nat} {many : Bool} {xs : List CSharpField} (h : seg <:+: ls) : seg <:+: xs.foldl (clearLines n many) ls := by
  induction xs generalizing ls with
  | nil => exact h
  | cons x xs ih =>
    refine ih ?_
    unfold clearLines
    split
    · exact infix_line h
    · exact infix_line (infix_line (infix_line h))

theorem infix_clearAll {n : Nat} {xs : List CSharpField} (h : seg <:+: ls) : seg <:+: clearAllLines n xs ls := by
  unfold clearAllLines
  split
  · exact infix_line h
  · exact infix_line (infix_lines (infix_line h))

/-- Look for lines further down. -/
macro "down" : tactic => `(tactic| with_reducible first
    | assumption
    | apply infix_line
    | apply infix_ite
    | apply infix_clearAll
    | apply infix_clear
    | apply infix_lines
    | apply infix_some)

theorem class_infix {cm : CaseMap} {s : StructMeta} {fs : List CSharpField} {b : Bool} {n : Nat} (h : seg <:+: ls) :
    seg <:+: (classLines cm s fs b n ls).1 := by
  unfold classLines
  dsimp only
  repeat down

theorem class_deserialize {cm : CaseMap} {s : StructMeta} {fs : List CSharpField} {b : Bool} {n : Nat} :
    (deserializeLines n (if b then lit! "internal" else lit! "public")
      (if !b then s.name.csharpName.toList ++ typeParams s.typeParams else s.name.csharpName.toList)
      (uncapFirstChar cm s.name.csharpName.toList)).reverse <:+: (classLines cm s fs b n ls).1 := by
  unfold classLines
  dsimp only
  repeat first | exact infix_here rfl | down

theorem class_notify {cm : CaseMap} {s : StructMeta} {fs : List CSharpField} {b : Bool} {n : Nat} :
    (replayLines n ++ maybeNotifyLines n (if !b then s.name.csharpName.toList ++ typeParams s.typeParams else s.name.csharpName.toList)).reverse <:+:
      (classLines cm s fs b n ls).1 := by
  unfold classLines
  dsimp only
  exact infix_here rfl

theorem enum_deserialize {cm : CaseMap} {e : EnumMeta} {dflt : VariantMeta} {n : Nat} :
    (deserializeLines n (lit! "public") (e.name.csharpName.toList ++ typeParams e.typeParams)
      (uncapFirstChar cm e.name.csharpName.toList)).reverse <:+: (enumLines cm e dflt n ls).1 := by
  unfold enumLines
  dsimp only
  repeat first | exact infix_here rfl | down

theorem enum_nested {cm : CaseMap} {e : EnumMeta} {dflt : VariantMeta} {n : Nat} :
    (enumNestedLines n).reverse <:+: (enumLines cm e dflt n ls).1 := by
  unfold enumLines
  dsimp only
  repeat first | exact infix_here rfl | down

theorem enum_update {cm : CaseMap} {e : EnumMeta} {dflt : VariantMeta} {n : Nat} :
    (replayLines n ++ updateAndNotifyLines n (e.name.csharpName.toList ++ typeParams e.typeParams)).reverse <:+: (enumLines cm e dflt n ls).1 := by
  unfold enumLines
  dsimp only
  exact infix_here rfl

theorem infix_block {α β : Type} {f : β → Text} {g : α → β} {xs : List α} {a b : Text} :
    (a :: (xs.map g).map f ++ [b]).reverse <:+: b :: xs.foldl (fun ls x => f (g x) :: ls) (a :: ls) := by
  have h : ∀ ls : List Text, xs.foldl (fun ls x => f (g x) :: ls) ls = (xs.map fun x => f (g x)).reverse ++ ls := by
    induction xs with
    | nil => exact fun _ => rfl
    | cons x xs ih => intro ls; simp [ih]
  refine ⟨[], ls, ?_⟩
  rw [h]
  simp [Function.comp_def]

/-- Variants as in `Spec.constantLines` (`steit/src/gen/generators/csharp.rs:400-422`). -/
def entry (cm : CaseMap) (v : VariantMeta) : Text × Text × Text :=
  (v.ty.name.csharpName.toList, toCamelCase cm v.ty.name.csharpName.toList true, decimal v.tag)

theorem enum_constants {cm : CaseMap} {e : EnumMeta} {dflt : VariantMeta} {n : Nat} :
    (constantLines n (e.name.csharpName.toList ++ typeParams e.typeParams) (e.variants.map (entry cm))).reverse <:+:
      (enumLines cm e dflt n ls).1 := by
  unfold enumLines
  dsimp only
  repeat first | exact infix_block | down

theorem enum_properties {cm : CaseMap} {e : EnumMeta} {dflt : VariantMeta} {n : Nat} :
    (variantLinesOf n (e.variants.map (entry cm))).reverse <:+: (enumLines cm e dflt n ls).1 := by
  unfold enumLines
  dsimp only
  repeat first | exact infix_block | down

theorem enum_news {cm : CaseMap} {e : EnumMeta} {dflt : VariantMeta} {n : Nat} :
    (newLines n e.name.csharpName.toList (e.variants.map (entry cm))).reverse <:+: (enumLines cm e dflt n ls).1 := by
  unfold enumLines
  dsimp only
  repeat first | exact infix_block | down

theorem Wrote.has {w : Writer} {n : Nat} {body : List Text} (h : Wrote w n ls) (hb : body.reverse <:+: ls) : Has w.out body := by
  obtain ⟨p, q, rfl⟩ := hb
  refine ⟨unlines q.reverse, unlines p.reverse, ?_⟩
  simp only [h.out, List.reverse_append, List.reverse_reverse, unlines_append, List.append_assoc]

/-- What the loop over variants writes has the bodies of each, and all that was there. -/
theorem variants_infix {cm : CaseMap} {setting : CSharpSetting} {n : Nat} {vs : List VariantMeta} {w w' : Writer} (h : Wrote w n ls)
    (hw : genVariants cm setting vs w = some w') : ∃ r, Wrote w' n r ∧ (∀ seg : List Text, seg <:+: ls → seg <:+: r) ∧
      ∀ v ∈ vs, (deserializeLines n (lit! "internal") v.ty.name.csharpName.toList (uncapFirstChar cm v.ty.name.csharpName.toList)).reverse <:+: r ∧
        (replayLines n ++ maybeNotifyLines n v.ty.name.csharpName.toList).reverse <:+: r := by
  induction vs generalizing w ls with
  | nil => cases hw; exact ⟨ls, h, fun _ h => h, fun _ h => nomatch h⟩
  | cons v vs ih =>
    simp only [genVariants, genStruct, Bool.not_true, Bool.false_eq_true, if_false] at hw
    cases hf : CSharpField.fromMetas cm v.ty.fields with
    | none => simp only [hf] at hw; cases hw
    | some fs =>
      simp only [hf] at hw
      obtain ⟨r, h1, h2, h3⟩ := ih ((classLines cm v.ty fs true n _).2 _ ((h.newline.writeln _).newline)) hw
      refine ⟨r, h1, fun seg hs => h2 _ (class_infix (infix_line (infix_line (infix_line hs)))), fun u hu => ?_⟩
      rcases List.mem_cons.1 hu with rfl | hu
      · exact ⟨h2 _ (class_deserialize (b := true)), h2 _ (class_notify (b := true))⟩
      · exact h3 u hu

end Steit.Gen
