import Mathlib.Tactic.ApplyWith
import Verif.Model.CSharpGen
import Verif.Model.LogEntryFile

/-!
# The lines the generator writes

To compute a file in the kernel, line by line; appending to what is there takes too long.
-/

namespace Steit.Gen
open Conformance

theorem unlines_append (a b : List Text) : unlines (a ++ b) = unlines a ++ unlines b := by
  induction a with
  | nil => rfl
  | cons l a ih => simp only [List.cons_append, unlines, ih, List.append_assoc]

/-- An indented line. -/
def lineAt (n : Nat) (t : Text) : Text := List.replicate (n * 4) ' ' ++ t

/-- What was written, last line first. -/
structure Wrote (w : Writer) (n : Nat) (ls : List Text) : Prop where
  size : w.indentSize = 4
  level : w.level = n
  out : w.out = unlines ls.reverse

section

variable {w : Writer} {n : Nat} {ls : List Text}

theorem wrote_new : Wrote (Writer.new 4) 0 [] := ⟨rfl, rfl, rfl⟩

theorem Wrote.newline (h : Wrote w n ls) : Wrote w.newline n ([] :: ls) :=
  ⟨h.size, h.level, by simp only [Writer.newline, h.out, List.reverse_cons, unlines_append, unlines, List.nil_append]⟩

theorem Wrote.writeln (t : Text) (h : Wrote w n ls) : Wrote (w.writeln t) n (lineAt n t :: ls) := by
  refine ⟨h.size, h.level, ?_⟩
  simp only [Writer.writeln, Writer.writeIndentation, Writer.write, Writer.newline, h.out, h.size, h.level, List.reverse_cons, unlines_append,
    unlines, lineAt, List.append_assoc]

theorem Wrote.indent (h : Wrote w n ls) : Wrote w.indent (n + 1) ls := ⟨h.size, by simp [Writer.indent, h.level], h.out⟩

theorem Wrote.outdent (h : Wrote w (n + 1) ls) : Wrote w.outdent n ls := by
  have := h.level
  unfold Writer.outdent
  rw [if_pos (by omega)]
  exact ⟨h.size, by simp [h.level], h.out⟩

theorem Wrote.indentWriteln (t : Text) (h : Wrote w n ls) : Wrote (w.indentWriteln t) (n + 1) (lineAt (n + 1) t :: ls) := h.indent.writeln t

theorem Wrote.outdentWriteln (t : Text) (h : Wrote w (n + 1) ls) : Wrote (w.outdentWriteln t) n (lineAt n t :: ls) := h.outdent.writeln t

theorem Wrote.newlineIf (c : Prop) [Decidable c] (h : Wrote w n ls) :
    Wrote (if c then w.newline else w) n (if c then [] :: ls else ls) := by
  split
  · exact h.newline
  · exact h

theorem Wrote.lines {α : Type} (f : α → Text) (xs : List α) (h : Wrote w n ls) :
    Wrote (each xs (fun w x => w.writeln (f x)) w) n (xs.foldl (fun ls x => lineAt n (f x) :: ls) ls) := by
  unfold each
  induction xs generalizing w ls with
  | nil => exact h
  | cons x xs ih => exact ih (h.writeln _)

/-- The line of `writelnSome`. -/
def someLine (n : Nat) (a : List Frag) (t : Option Text) (b : List Frag) (ls : List Text) : List Text :=
  match t with
  | none => ls
  | some t => lineAt n (fmt (a ++ [.arg t] ++ b)) :: ls

theorem Wrote.someLines {α : Type} (a b : α → List Frag) (t : α → Option Text) (xs : List α) (h : Wrote w n ls) :
    Wrote (each xs (fun w x => writelnSome (a x) (t x) (b x) w) w) n (xs.foldl (fun ls x => someLine n (a x) (t x) (b x) ls) ls) := by
  unfold each
  induction xs generalizing w ls with
  | nil => exact h
  | cons x xs ih =>
    refine ih ?_
    dsimp only
    cases t x with
    | none => exact h
    | some t => exact h.writeln _

/-- The lines of `genClearField`. -/
def clearLines (n : Nat) (many : Bool) (ls : List Text) (f : CSharpField) : List Text :=
  if many then lineAt n (fmt (fmt! "public static void Clear{}UpdateHandlers() {{" f.name) ++ (lit! " ") ++
    fmt (fmt! "On{}Update = null;" f.name) ++ (lit! " ") ++ (lit! "}")) :: ls
  else lineAt n (lit! "}") :: lineAt (n + 1) (fmt (fmt! "On{}Update = null;" f.name)) ::
    lineAt n (fmt (fmt! "public static void Clear{}UpdateHandlers() {{" f.name)) :: ls

theorem Wrote.clearFields (many : Bool) (xs : List CSharpField) (h : Wrote w n ls) :
    Wrote (each xs (genClearField many) w) n (xs.foldl (clearLines n many) ls) := by
  unfold each
  induction xs generalizing w ls with
  | nil => exact h
  | cons x xs ih =>
    refine ih ?_
    cases many with
    | true =>
      have := h.writeln (fmt (fmt! "public static void Clear{}UpdateHandlers() {{" x.name) ++ (lit! " ") ++
        fmt (fmt! "On{}Update = null;" x.name) ++ (lit! " ") ++ (lit! "}"))
      simpa only [genClearField, clearLines, if_true, Writer.writeln, Writer.write, List.append_assoc] using this
    | false => exact ((h.writeln _).indent.writeln _).outdent.writeln _

/-- The lines of `genClearAll`. -/
def clearAllLines (n : Nat) (fs : List CSharpField) (ls : List Text) : List Text :=
  match fs with
  | [] => lineAt n (lit! "public static void ClearUpdateHandlers() { }") :: ls
  | _ => lineAt n (lit! "}") :: fs.foldl (fun ls f => lineAt (n + 1) (fmt (fmt! "On{}Update = null;" f.name)) :: ls)
    (lineAt n (lit! "public static void ClearUpdateHandlers() {") :: ls)

/-- A line that is not ended yet. -/
structure OpenLine (w : Writer) (n : Nat) (ls : List Text) : Prop where
  size : w.indentSize = 4
  level : w.level = n
  out : w.newline.out = unlines ls.reverse

theorem OpenLine.newline (h : OpenLine w n ls) : Wrote w.newline n ls := ⟨h.size, h.level, h.out⟩

theorem Wrote.start (t : Text) (h : Wrote w n ls) : OpenLine (w.writeIndentation.write t) n (lineAt n t :: ls) := ⟨h.size, h.level, (h.writeln t).out⟩

theorem OpenLine.each (f : CSharpField → Text) (xs : List CSharpField) (h : OpenLine w n ls) :
    OpenLine (each xs (fun w x => (w.newline.writeIndentation).write (f x)) w) n (xs.foldl (fun ls x => lineAt n (f x) :: ls) ls) := by
  unfold Gen.each
  induction xs generalizing w ls with
  | nil => exact h
  | cons x xs ih => exact ih (h.newline.start _)

theorem Wrote.clearAll (fs : List CSharpField) (h : Wrote w n ls) : Wrote (genClearAll fs w) n (clearAllLines n fs ls) := by
  cases fs with
  | nil =>
    have := h.writeln (lit! "public static void ClearUpdateHandlers() { }")
    simpa only [genClearAll, clearAllLines, each, List.foldl_nil, List.isEmpty_nil, Bool.not_true, Bool.false_eq_true, if_false, Writer.writeln,
      Writer.write, List.append_assoc, List.cons_append, List.nil_append] using this
  | cons f fs =>
    have h1 := h.start (lit! "public static void ClearUpdateHandlers() {")
    have h2 : OpenLine (w.writeIndentation.write (lit! "public static void ClearUpdateHandlers() {")).indent (n + 1)
        (lineAt n (lit! "public static void ClearUpdateHandlers() {") :: ls) :=
      ⟨h1.size, by simp [Writer.indent, h1.level], h1.out⟩
    have h3 := OpenLine.each (fun f => fmt (fmt! "On{}Update = null;" f.name)) (f :: fs) h2
    have h4 := h3.newline.outdent.writeln (lit! "}")
    exact cast (congrArg (fun w => Wrote w n _) (by
      simp only [genClearAll, List.isEmpty_cons, Bool.not_false, if_true, Writer.writeln]
      unfold Writer.outdent Writer.newline
      split <;> rfl)) h4

end

/-- Read the lines off calls of the writer. -/
macro "wrote" : tactic => `(tactic| repeat first
    | with_reducible assumption
    | with_reducible exact wrote_new
    | with_reducible apply (newGoals := .nonDependentOnly) Wrote.outdentWriteln
    | with_reducible apply (newGoals := .nonDependentOnly) Wrote.indentWriteln
    | with_reducible apply (newGoals := .nonDependentOnly) Wrote.writeln
    | with_reducible apply (newGoals := .nonDependentOnly) Wrote.newlineIf
    | with_reducible apply (newGoals := .nonDependentOnly) Wrote.newline
    | with_reducible apply (newGoals := .nonDependentOnly) Wrote.indent
    | with_reducible apply (newGoals := .nonDependentOnly) Wrote.clearAll
    | with_reducible apply (newGoals := .nonDependentOnly) Wrote.clearFields
    | with_reducible apply (newGoals := .nonDependentOnly) Wrote.lines
    | with_reducible apply (newGoals := .nonDependentOnly) Wrote.someLines)

/-- The lines of `genFileOpening`. -/
def openingLines (setting : CSharpSetting) (ls : List Text) :
    {r : List Text // ∀ w, Wrote w 0 ls → Wrote (genFileOpening setting w) 1 r} :=
  ⟨_, fun w h => by unfold genFileOpening; dsimp only; wrote⟩

/-- The lines of `genClass`. -/
def classLines (cm : CaseMap) (s : StructMeta) (fs : List CSharpField) (isVariant : Bool) (n : Nat) (ls : List Text) :
    {r : List Text // ∀ w, Wrote w n ls → Wrote (genClass cm s fs isVariant w) n r} :=
  ⟨_, fun w h => by unfold genClass; dsimp only; wrote⟩

/-- The lines of `genEnumClass`. -/
def enumLines (cm : CaseMap) (e : EnumMeta) (dflt : VariantMeta) (n : Nat) (ls : List Text) :
    {r : List Text // ∀ w, Wrote w n ls → Wrote (genEnumClass cm e dflt w) (n + 1) r} :=
  ⟨_, fun w h => by unfold genEnumClass; dsimp only; wrote⟩

/-- The lines of `genVariants`. -/
def variantLines (cm : CaseMap) (n : Nat) : List VariantMeta → List Text → Option (List Text)
  | [], ls => some ls
  | v :: vs, ls =>
    match CSharpField.fromMetas cm v.ty.fields with
    | none => none
    | some fs => variantLines cm n vs (classLines cm v.ty fs true n
        ([] :: lineAt n (fmt (fmt! "// Variant ({}): {}" decimal v.tag, v.ty.name.csharpName.toList)) :: [] :: ls)).1

theorem wrote_variants {cm : CaseMap} {setting : CSharpSetting} {n : Nat} {vs : List VariantMeta} {w : Writer} {ls r : List Text}
    (h : Wrote w n ls) (hr : variantLines cm n vs ls = some r) : ∃ w', genVariants cm setting vs w = some w' ∧ Wrote w' n r := by
  induction vs generalizing w ls with
  | nil => cases hr; exact ⟨w, rfl, h⟩
  | cons v vs ih =>
    unfold variantLines at hr
    split at hr
    · cases hr
    · rename_i fs hf
      simp only [genVariants, genStruct, hf, Bool.not_true, Bool.false_eq_true, if_false]
      exact ih ((classLines cm v.ty fs true n _).2 _ ((h.newline.writeln _).newline)) hr

/-- The lines of the file of an enum. -/
def enumFileLines (cm : CaseMap) (setting : CSharpSetting) (e : EnumMeta) : Option (List Text) :=
  match e.variants.find? fun v => v.tag == 0 with
  | none => none
  | some dflt =>
    (variantLines cm 2 e.variants (enumLines cm e dflt 1 (openingLines setting []).1).1).map fun ls =>
      (lineAt 0 (lit! "}") :: lineAt 1 (lit! "}") :: ls).reverse

/-- What is in the file of an enum, line by line. -/
theorem source_enum {cm : CaseMap} {setting : CSharpSetting} {e : EnumMeta} {ls : List Text} (h : enumFileLines cm setting e = some ls) :
    source cm setting (.enum e) = some (unlines ls) := by
  unfold enumFileLines at h
  unfold source genEnum
  dsimp only
  split at h
  · cases h
  · rename_i dflt hd
    rw [hd]
    dsimp only
    obtain ⟨r, hr, rfl⟩ := Option.map_eq_some_iff.1 h
    obtain ⟨w, hw, hl⟩ := wrote_variants (setting := setting)
      ((enumLines cm e dflt 1 _).2 _ ((openingLines setting []).2 _ wrote_new)) hr
    rw [hw]
    have := (hl.outdentWriteln (lit! "}")).outdentWriteln (lit! "}")
    exact congrArg some this.out

end Steit.Gen
