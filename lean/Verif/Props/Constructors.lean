import Verif.Lemmas.OpeningGen
import Verif.Props.ClassesShipped

/-!
# C69: how constructors start

`Model/Classes.lean` reads off the text what constructors put into properties, and takes it for granted that they set the path, the tag and
check type arguments before.
-/

namespace Steit.Gen

open Steit.Gen.Spec Steit.Conformance

variable {cm : CaseMap} {setting : CSharpSetting} {text : Text} {ls : List Text}

theorem constructor_here {n : Nat} {head : List Text} {params : List String} {spaced : Bool} :
    (constructorLines n head (params.map String.toList) spaced).reverse <:+:
      lineAt (n + 2) (lit! "this.Path = path ?? Path.Root;") ::
        if spaced = true then [] :: params.foldl (fun ls p => lineAt (n + 2) (fmt (fmt! "StateFactory.ValidateType(typeof({}));" p.toList)) :: ls)
          (deep (n + 1) head :: ls)
        else params.foldl (fun ls p => lineAt (n + 2) (fmt (fmt! "StateFactory.ValidateType(typeof({}));" p.toList)) :: ls)
          (deep (n + 1) head :: ls) := by
  unfold constructorLines
  rw [fold_lines]
  refine infix_here (rest := ls) ?_
  cases spaced <;> simp [lineAt, deep, fmt, Frag.text, Function.comp_def]

theorem setTag_here {n : Nat} {head : List Text} {params : List String} {spaced : Bool} :
    (constructorLines n head (params.map String.toList) spaced ++ setTagLines n spaced).reverse <:+:
      lineAt (n + 2) (lit! "switch (tag) {") :: [] :: lineAt (n + 2) (lit! "this.Tag = tag;") ::
        if spaced = true then [] :: lineAt (n + 2) (lit! "this.Path = path ?? Path.Root;") ::
          (if spaced = true then
            [] :: params.foldl (fun ls p => lineAt (n + 2) (fmt (fmt! "StateFactory.ValidateType(typeof({}));" p.toList)) :: ls)
              (deep (n + 1) head :: ls)
          else params.foldl (fun ls p => lineAt (n + 2) (fmt (fmt! "StateFactory.ValidateType(typeof({}));" p.toList)) :: ls)
            (deep (n + 1) head :: ls))
        else lineAt (n + 2) (lit! "this.Path = path ?? Path.Root;") ::
          if spaced = true then
            [] :: params.foldl (fun ls p => lineAt (n + 2) (fmt (fmt! "StateFactory.ValidateType(typeof({}));" p.toList)) :: ls)
              (deep (n + 1) head :: ls)
          else params.foldl (fun ls p => lineAt (n + 2) (fmt (fmt! "StateFactory.ValidateType(typeof({}));" p.toList)) :: ls)
            (deep (n + 1) head :: ls) := by
  unfold constructorLines setTagLines
  rw [fold_lines]
  refine infix_here (rest := ls) ?_
  cases spaced <;> simp [lineAt, deep, fmt, Frag.text, Function.comp_def]

theorem class_constructor {s : StructMeta} {fs : List CSharpField} {b : Bool} {n : Nat} :
    (constructorLines n [if b then lit! "internal" else lit! "public", text! " ", s.name.csharpName.toList, text! "(Path path = null) {"]
      (s.typeParams.map String.toList) (decide (1 < s.typeParams.length) && decide (1 < fs.length))).reverse <:+: (classLines cm s fs b n ls).1 := by
  unfold classLines
  dsimp only
  repeat first | exact constructor_here | down

theorem enum_constructor {e : EnumMeta} {dflt : VariantMeta} {n : Nat} :
    (constructorLines n [text! "public ", e.name.csharpName.toList, text! "(Path path, UInt32 tag) {"]
      (e.typeParams.map String.toList) (decide (1 < e.typeParams.length)) ++ setTagLines n (decide (1 < e.typeParams.length))).reverse <:+:
      (enumLines cm e dflt n ls).1 := by
  unfold enumLines
  dsimp only
  repeat first | exact setTag_here | down

theorem variants_constructor {n : Nat} {vs : List VariantMeta} {w w' : Writer} (h : Wrote w n ls)
    (hw : genVariants cm setting vs w = some w') : ∃ r, Wrote w' n r ∧ (∀ seg : List Text, seg <:+: ls → seg <:+: r) ∧
      ∀ v ∈ vs, (constructorLines n [text! "internal", text! " ", v.ty.name.csharpName.toList, text! "(Path path = null) {"]
        (v.ty.typeParams.map String.toList) (decide (1 < v.ty.typeParams.length) && decide (1 < v.ty.fields.length))).reverse <:+: r := by
  induction vs generalizing w ls with
  | nil => cases hw; exact ⟨ls, h, fun _ h => h, fun _ h => nomatch h⟩
  | cons v vs ih =>
    simp only [genVariants, genStruct, Bool.not_true, Bool.false_eq_true, if_false] at hw
    cases hf : CSharpField.fromMetas cm v.ty.fields with
    | none => simp only [hf] at hw; cases hw
    | some fs =>
      simp only [hf] at hw
      obtain ⟨r, h1, h2, h3⟩ := ih ((classLines cm v.ty fs true n _).2 _ ((h.newline.writeln _).newline)) hw
      refine ⟨r, h1, fun seg hs => h2 _ (class_infix (infix_line (infix_line (infix_line hs)))), fun u hu => ?_⟩
      rcases List.mem_cons.1 hu with rfl | hu
      · have hl : fs.length = u.ty.fields.length := by simpa using congrArg List.length (fromMetas_names hf)
        rw [← hl]
        exact h2 _ (class_constructor (b := true))
      · exact h3 u hu

/-- C69. The constructor of the class of a struct checks the type arguments, in order, and sets the path before anything else. -/
theorem C69_struct_constructor {s : StructMeta} (h : source cm setting (.struct s) = some text) :
    Has text (constructorLines 1 [text! "public", text! " ", s.name.csharpName.toList, text! "(Path path = null) {"]
      (s.typeParams.map String.toList) (decide (1 < s.typeParams.length) && decide (1 < s.fields.length))) := by
  obtain ⟨w, hw, rfl⟩ := Option.map_eq_some_iff.1 h
  unfold genStruct at hw
  split at hw
  · cases hw
  · rename_i fs hf
    cases hw
    have h1 := (openingLines setting []).2 _ wrote_new
    have h2 := ((classLines cm s fs false 1 _).2 _ h1).outdentWriteln (lit! "}")
    have hl : fs.length = s.fields.length := by simpa using congrArg List.length (fromMetas_names hf)
    rw [← hl]
    exact h2.has (infix_line (class_constructor (b := false)))

/-- C69. The constructor of the class of an enum checks the type arguments and sets path and tag before it chooses the variant; the
constructors of variants are as those of structs. -/
theorem C69_enum_constructor {e : EnumMeta} (h : source cm setting (.enum e) = some text) :
    Has text (constructorLines 1 [text! "public ", e.name.csharpName.toList, text! "(Path path, UInt32 tag) {"]
      (e.typeParams.map String.toList) (decide (1 < e.typeParams.length)) ++ setTagLines 1 (decide (1 < e.typeParams.length))) ∧
    ∀ v ∈ e.variants, Has text (constructorLines 2 [text! "internal", text! " ", v.ty.name.csharpName.toList, text! "(Path path = null) {"]
      (v.ty.typeParams.map String.toList) (decide (1 < v.ty.typeParams.length) && decide (1 < v.ty.fields.length))) := by
  obtain ⟨w, hw, rfl⟩ := Option.map_eq_some_iff.1 h
  unfold genEnum at hw
  split at hw
  · cases hw
  · rename_i dflt hd
    split at hw
    · cases hw
    · rename_i w' hv
      cases hw
      obtain ⟨r, h1, h2, h3⟩ := variants_constructor ((enumLines cm e dflt 1 _).2 _ ((openingLines setting []).2 _ wrote_new)) hv
      have h4 := (h1.outdentWriteln (lit! "}")).outdentWriteln (lit! "}")
      have up {body : List Text} (hb : body.reverse <:+: r) := h4.has (infix_line (infix_line hb))
      exact ⟨up (h2 _ enum_constructor), fun v hm => up (h3 v hm)⟩

/-- `Maybe.cs`. -/
example : Has maybeFile [
    text! "        public Maybe(Path path, UInt32 tag) {",
    text! "            StateFactory.ValidateType(typeof(T));",
    text! "            this.Path = path ?? Path.Root;",
    text! "            this.Tag = tag;",
    [],
    text! "            switch (tag) {"] := by
  obtain ⟨h, _⟩ := C69_enum_constructor (e := exMaybe) C69_maybe_file
  exact cast (congrArg (Has maybeFile) (by decide +kernel)) h

/-- The file of `struct Pair<A, B>`. -/
example : ∃ text, source ascii ⟨lit! "N", []⟩ (exDecls.message .pair) = some text ∧ Has text [
    text! "        public Pair(Path path = null) {",
    text! "            StateFactory.ValidateType(typeof(A));",
    text! "            StateFactory.ValidateType(typeof(B));",
    [],
    text! "            this.Path = path ?? Path.Root;"] := by
  obtain ⟨text, ht⟩ := exDecls_source .pair
  exact ⟨text, ht, cast (congrArg (Has text) (by decide +kernel)) (C69_struct_constructor ht)⟩

end Steit.Gen
