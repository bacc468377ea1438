import Verif.Lemmas.DeriveExact

/-!
# C72: the code that is derived does what the model of derived types says, or does not compile

`Verif/Model/DeriveCode.lean` is the text the macros write, with its names. The theorems say which declarations compile, exactly, and that the
methods of those are the methods of `Ty.dict`, about which the other theorems are. Comparing enums is the exception: the variables of the two
patterns can meet.
-/

namespace Steit.Derive

open Spec

/-! ## Structs -/

/-- Derived code of a struct compiles if and only if its fields, with those added, have different names, and so have its methods. Then it is the model's. -/
theorem C72_struct (it : Item) (hl : LegalItem it) (pre : String) (withSetters : Bool) :
    (Distinct it ∧ (pre :: if withSetters then setters it "set" else []).Nodup →
      structCode pre withSetters it = some (Ty.struct it.state it.cache.isSome it.fs).dict) ∧
    (¬(Distinct it ∧ (pre :: if withSetters then setters it "set" else []).Nodup) → structCode pre withSetters it = none) := by
  rw [← setterNames_eq]
  constructor
  · rintro ⟨h1, h2⟩
    exact structCode_eq (distinct_iff.2 h1) hl h2
  · intro h
    by_cases h1 : Distinct it
    · have h2 : ¬(pre :: if withSetters then it.setterNames "set" else []).Nodup := fun h2 => h ⟨h1, h2⟩
      have hk : KeysNodup it := distinct_iff.2 h1
      simp only [structCode, need_true hk, need_false h2, Option.bind_eq_bind, Option.bind_some, Option.bind_none]
    · have hk : ¬KeysNodup it := fun hk => h1 (distinct_iff.1 hk)
      simp only [structCode, need_false hk, Option.bind_eq_bind, Option.bind_none]

/-- So does `==` of a struct. -/
theorem C72_struct_eq (it : Item) :
    (Distinct it → structEq it = some (Ty.struct it.state it.cache.isSome it.fs).eq) ∧ (¬Distinct it → structEq it = none) := by
  refine ⟨fun h => structEq_eq (distinct_iff.2 h), fun h => ?_⟩
  have hk : ¬KeysNodup it := fun hk => h (distinct_iff.1 hk)
  simp only [structEq, need_false hk, Option.bind_eq_bind, Option.bind_none]

/-- And its hash. -/
theorem C72_struct_hash (it : Item) :
    (Distinct it → structHash it = some (Ty.struct it.state it.cache.isSome it.fs).hash) ∧ (¬Distinct it → structHash it = none) := by
  refine ⟨fun h => ?_, fun h => ?_⟩
  · rw [structHash_eq (distinct_iff.2 h)]
    exact congrArg some (funext fun v => by rw [Ty.hash])
  · have hk : ¬KeysNodup it := fun hk => h (distinct_iff.1 hk)
    simp only [structHash, need_false hk, Option.bind_eq_bind, Option.bind_none]

/-- A struct whose fields are called like variables of the templates: in structs they do not get in the way. -/
def exStruct : Item :=
  ⟨false, [(⟨false, "size"⟩, ⟨0#32, {}, .uint .w32⟩), (⟨true, "type"⟩, ⟨1#32, { noState := true }, .string⟩), (⟨false, "reader"⟩, ⟨2#32, {}, .list (.uint .w8)⟩)],
    true, some "size_cache", "runtime"⟩

instance (x : Ident) : Decidable (Legal x) :=
  decidable_of_iff (' ' ∉ x.text.toList ∧ (x.raw = false → x.text ∉ keywords)) ⟨fun h => ⟨h.1, h.2⟩, fun h => ⟨h.1, h.2⟩⟩

theorem exStruct_legal : LegalItem exStruct := ⟨fun _ => by decide, by decide, by decide⟩

example : structCode "new" true exStruct = some (Ty.struct true true exStruct.fs).dict := (C72_struct exStruct exStruct_legal "new" true).1 ⟨.inr (by decide), by decide⟩

/-- Fields `x` and `x_with`: the setter `set_x_with` would be there twice. -/
def exClash : Item :=
  ⟨false, [(⟨false, "x"⟩, ⟨0#32, {}, .uint .w32⟩), (⟨false, "x_with"⟩, ⟨1#32, {}, .uint .w32⟩)], true, some "size_cache", "runtime"⟩

example : structCode "new" true exClash = none :=
  (C72_struct exClash ⟨fun _ => by decide, by decide, by decide⟩ "new" true).2 fun h => absurd h.2 (by decide)

example : structCode "new" false exClash = some (Ty.struct true true exClash.fs).dict :=
  (C72_struct exClash ⟨fun _ => by decide, by decide, by decide⟩ "new" false).1 ⟨.inr (by decide), by decide⟩

/-- A field called like the one that is added. -/
example : structCode "new" false { exClash with runtime := "x" } = none :=
  (C72_struct _ ⟨fun _ => by decide, by decide, by decide⟩ "new" false).2 fun h => absurd h.1 (by rintro (h | h) <;> revert h <;> decide)

example : structEq exStruct = some (Ty.struct true true exStruct.fs).eq := (C72_struct_eq exStruct).1 (.inr (by decide))

example : structHash exStruct = some (Ty.struct true true exStruct.fs).hash := (C72_struct_hash exStruct).1 (.inr (by decide))

/-! ## Enums -/

theorem methods_eq (cm : Gen.CaseMap) (pre : String) (withSetters : Bool) (vars : List Var) :
    enumMethods cm pre withSetters vars = methods cm pre withSetters vars := by
  simp only [enumMethods, methods, Var.ctorName, setterNames_eq, String.append_assoc, List.cons_append, List.nil_append]

/-- Declarations of enums as the macros accept them (C47): tags differ, one is 0. -/
structure Accepted (state : Bool) (vars : List Var) (dv : Var) : Prop where
  tags : (vars.map (·.tag)).Nodup
  dflt : (vars.find? fun v => v.tag == 0#32) = some dv
  state : ∀ v ∈ vars, v.item.state = state

theorem named_iff {vars : List Var} : Named vars ↔ (vars.map (·.name)).Nodup ∧ ∀ v ∈ vars, Distinct v.item :=
  ⟨fun h => ⟨h.names, fun v hv => distinct_iff.1 (h.members v hv)⟩, fun h => ⟨h.1, fun v hv => distinct_iff.2 (h.2 v hv)⟩⟩

/-- Derived code of an enum compiles if and only if variants, the fields of each, and methods have different names, and no field of a variant is called
like a keyword or a variable of the templates. Then it is the model's. -/
theorem C72_enum (cm : Gen.CaseMap) (pre : String) (withSetters state : Bool) (vars : List Var) (dv : Var) (cached : Bool) (fs : Fields) (vs : Variants)
    (ha : Accepted state vars dv) (hl : ∀ v ∈ vars, LegalItem v.item) (hw : Listed vars dv (.cons 0#32 cached fs vs)) :
    ((vars.map (·.name)).Nodup ∧ (∀ v ∈ vars, Distinct v.item) ∧ (methods cm pre withSetters vars).Nodup ∧ (∀ v ∈ vars, Free v.item) →
      enumCode cm pre withSetters state vars (.cons 0#32 cached fs vs) = some (Ty.enum state cached fs vs).dict) ∧
    (¬((vars.map (·.name)).Nodup ∧ (∀ v ∈ vars, Distinct v.item) ∧ (methods cm pre withSetters vars).Nodup ∧ (∀ v ∈ vars, Free v.item)) →
      enumCode cm pre withSetters state vars (.cons 0#32 cached fs vs) = none) := by
  have hdv : dv ∈ vars := List.mem_of_find?_eq_some ha.dflt
  have hd0 : dv.tag = 0#32 := by simpa using List.find?_some ha.dflt
  rw [← methods_eq]
  constructor
  · rintro ⟨h1, h2, h3, h4⟩
    exact enumCode_eq ⟨named_iff.2 ⟨h1, h2⟩, ha.tags, ctorNames_nodup h3, ha.state, listed_of hw hdv hd0, listed_all hw⟩ h3 hl
      (fun v hv => free_iff.1 (h4 v hv)) ha.dflt
  · intro h
    cases he : enumCode cm pre withSetters state vars (.cons 0#32 cached fs vs) with
    | none => rfl
    | some D =>
      obtain ⟨h1, h2, h3⟩ := enumCode_inv ha.state (by rw [he]; exact fun e => by cases e)
      exact absurd ⟨(named_iff.1 h1).1, (named_iff.1 h1).2, h2, fun v hv => free_iff.2 (h3 v hv)⟩ h

/-- Hashing an enum, likewise. -/
theorem C72_enum_hash (state : Bool) (vars : List Var) (dv : Var) (cached : Bool) (fs : Fields) (vs : Variants) (ha : Accepted state vars dv)
    (hw : Listed vars dv (.cons 0#32 cached fs vs)) :
    ((vars.map (·.name)).Nodup ∧ (∀ v ∈ vars, Distinct v.item) ∧ (∀ v ∈ vars, FreeForHash v.item) →
      enumHash vars (.cons 0#32 cached fs vs) = some (Ty.enum state cached fs vs).hash) ∧
    (¬((vars.map (·.name)).Nodup ∧ (∀ v ∈ vars, Distinct v.item) ∧ (∀ v ∈ vars, FreeForHash v.item)) →
      enumHash vars (.cons 0#32 cached fs vs) = none) := by
  have hdv : dv ∈ vars := List.mem_of_find?_eq_some ha.dflt
  have hd0 : dv.tag = 0#32 := by simpa using List.find?_some ha.dflt
  constructor
  · rintro ⟨h1, h2, h3⟩
    rw [enumHash_eq (named_iff.2 ⟨h1, h2⟩) ha.tags (listed_of hw hdv hd0) fun v hv => freeHash_iff.1 (h3 v hv)]
    refine congrArg some (funext fun v => ?_)
    obtain ⟨rt, val⟩ := v
    rw [Ty.hash]
    cases val <;> rfl
  · intro h
    cases he : enumHash vars (.cons 0#32 cached fs vs) with
    | none => rfl
    | some D =>
      have hne : enumHash vars (.cons 0#32 cached fs vs) ≠ none := by rw [he]; exact fun e => by cases e
      obtain ⟨h1, h2⟩ := enumHash_inv hne
      exact absurd ⟨(named_iff.1 h1).1, (named_iff.1 h1).2, fun v hv => freeHash_iff.2 (h2 v hv)⟩ h

/-- Comparing enums, likewise, except that the result is the model's only when no compared field is called `other_` and the name of a field.
Missing: other names, for which it is not (`C72_false_enum_eq`). -/
theorem C72_enum_eq_partial (state : Bool) (vars : List Var) (dv : Var) (cached : Bool) (fs : Fields) (vs : Variants) (ha : Accepted state vars dv)
    (hw : Listed vars dv (.cons 0#32 cached fs vs)) :
    ((vars.map (·.name)).Nodup ∧ (∀ v ∈ vars, Distinct v.item) ∧ (∀ v ∈ vars, FreeForEq v.item) ∧ (∀ v ∈ vars, NoOther v.item) →
      enumEq vars (.cons 0#32 cached fs vs) = some (Ty.enum state cached fs vs).eq) ∧
    (enumEq vars (.cons 0#32 cached fs vs) = none ↔ ¬((vars.map (·.name)).Nodup ∧ (∀ v ∈ vars, Distinct v.item) ∧ (∀ v ∈ vars, FreeForEq v.item))) := by
  have hdv : dv ∈ vars := List.mem_of_find?_eq_some ha.dflt
  have hd0 : dv.tag = 0#32 := by simpa using List.find?_some ha.dflt
  constructor
  · rintro ⟨h1, h2, h3, h4⟩
    rw [enumEq_eq (named_iff.2 ⟨h1, h2⟩) ha.tags (listed_of hw hdv hd0) (listed_nodup hw ha.tags) (fun v hv => freeEq_iff.1 (h3 v hv))
      fun v hv => noOther_iff.1 (h4 v hv)]
    refine congrArg some (funext fun v => funext fun w => ?_)
    obtain ⟨rt, val⟩ := v
    obtain ⟨rt', val'⟩ := w
    rw [Ty.eq]
    cases val <;> cases val' <;> rfl
  · constructor
    · rintro he ⟨h1, h2, h3⟩
      exact enumEq_some (named_iff.2 ⟨h1, h2⟩) (fun v hv => freeEq_iff.1 (h3 v hv)) he
    · intro h
      cases he : enumEq vars (.cons 0#32 cached fs vs) with
      | none => rfl
      | some D =>
        have hne : enumEq vars (.cons 0#32 cached fs vs) ≠ none := by rw [he]; exact fun e => by cases e
        obtain ⟨h1, h2⟩ := enumEq_inv hne
        exact absurd ⟨(named_iff.1 h1).1, (named_iff.1 h1).2, fun v hv => freeEq_iff.2 (h2 v hv)⟩ h

/-- The types of these theorems are those of C47: what `Output.ty` says of the variants that were parsed. -/
theorem C72_listed (state : Bool) (vars : List Var) (dv : Var) (h : (vars.find? fun v => v.tag == 0#32) = some dv) :
    ∃ cached fs vs, Output.ty state (.enum (vars.map Var.parsed)) = .enum state cached fs vs ∧ Listed vars dv (.cons 0#32 cached fs vs) := by
  refine ⟨dv.item.cache.isSome, dv.item.fs, variantsOf ((vars.filter fun v : Var => v.tag != 0#32).map Var.parsed), ?_, rfl⟩
  have h1 : ((vars.map Var.parsed).find? fun v => v.tag == 0#32) = some dv.parsed := by
    rw [List.find?_map]
    exact congrArg (Option.map Var.parsed) h
  have h2 : ((vars.map Var.parsed).filter fun v => v.tag != 0#32) = (vars.filter fun v => v.tag != 0#32).map Var.parsed := by
    rw [List.filter_map]; rfl
  rw [Output.ty, h1, h2]
  rfl

/-- Two variants, one without names. -/
def exVars : List Var :=
  [⟨"Move", 3#32, ⟨false, [(⟨false, "from"⟩, ⟨0#32, {}, .uint .w32⟩), (⟨false, "to"⟩, ⟨1#32, { noState := true }, .string⟩)], true, some "size_cache", "runtime"⟩⟩,
   ⟨"Idle", 0#32, ⟨true, [(⟨false, ""⟩, ⟨0#32, {}, .uint .w8⟩)], true, some "size_cache", "runtime"⟩⟩]

/-- Its values. -/
def exW : Variants :=
  .cons 0#32 true (.cons 0#32 {} (.uint .w8) .nil)
    (.cons 3#32 true (.cons 0#32 {} (.uint .w32) (.cons 1#32 { noState := true } .string .nil)) .nil)

/-- The default variant. -/
def exDv : Var := ⟨"Idle", 0#32, ⟨true, [(⟨false, ""⟩, ⟨0#32, {}, .uint .w8⟩)], true, some "size_cache", "runtime"⟩⟩

theorem exAccepted : Accepted true exVars exDv := ⟨by decide, rfl, by simp [exVars]⟩

theorem exLegal : ∀ v ∈ exVars, LegalItem v.item := by
  intro v hv
  simp only [exVars, List.mem_cons, List.not_mem_nil, or_false] at hv
  rcases hv with rfl | rfl
  · exact ⟨fun _ => by decide, by decide, by decide⟩
  · exact ⟨fun h => (by cases h), by decide, by decide⟩

theorem exDistinct : ∀ v ∈ exVars, Distinct v.item := by
  intro v hv
  simp only [exVars, List.mem_cons, List.not_mem_nil, or_false] at hv
  rcases hv with rfl | rfl
  · exact .inr (by decide)
  · exact .inl rfl

example : enumCode Gen.ascii "new" true true exVars exW = some (Ty.enum true true (.cons 0#32 {} (.uint .w8) .nil)
    (.cons 3#32 true (.cons 0#32 {} (.uint .w32) (.cons 1#32 { noState := true } .string .nil)) .nil)).dict := by
  refine (C72_enum Gen.ascii "new" true true exVars exDv true _ _ exAccepted exLegal rfl).1 ⟨by decide, exDistinct, by decide, ?_⟩
  intro v hv
  simp only [exVars, List.mem_cons, List.not_mem_nil, or_false] at hv
  rcases hv with rfl | rfl
  · refine .inr fun e he => ?_
    simp only [List.mem_cons, List.not_mem_nil, or_false] at he
    rcases he with rfl | rfl <;> exact ⟨by decide, by decide, fun _ => by decide, fun _ => by decide, fun _ => by decide⟩
  · exact .inl rfl

/-- A field `size` in a variant: the text does not compile. -/
example : enumCode Gen.ascii "new" false false [⟨"A", 0#32, ⟨false, [(⟨false, "size"⟩, ⟨0#32, {}, .uint .w8⟩)], false, none, "runtime"⟩⟩]
    (.cons 0#32 false (.cons 0#32 {} (.uint .w8) .nil) .nil) = none := by
  refine (C72_enum Gen.ascii "new" false false _ ⟨"A", 0#32, ⟨false, [(⟨false, "size"⟩, ⟨0#32, {}, .uint .w8⟩)], false, none, "runtime"⟩⟩ false _ _
    ⟨by simp, rfl, by simp⟩ ?_ rfl).2 fun h => ?_
  · intro v hv
    rw [List.mem_singleton] at hv
    subst hv
    exact ⟨fun _ => by decide, by decide, by decide⟩
  · rcases h.2.2.2 _ (.head _) with h | h
    · cases h
    · exact absurd (h _ (.head _)).2.1 (by decide)

example : enumHash exVars exW = some (Ty.enum true true (.cons 0#32 {} (.uint .w8) .nil)
    (.cons 3#32 true (.cons 0#32 {} (.uint .w32) (.cons 1#32 { noState := true } .string .nil)) .nil)).hash := by
  refine (C72_enum_hash true exVars exDv true _ _ exAccepted rfl).1 ⟨by decide, exDistinct, ?_⟩
  intro v hv
  simp only [exVars, List.mem_cons, List.not_mem_nil, or_false] at hv
  rcases hv with rfl | rfl
  · exact .inr (by decide)
  · exact .inl rfl

example : enumEq exVars exW = some (Ty.enum true true (.cons 0#32 {} (.uint .w8) .nil)
    (.cons 3#32 true (.cons 0#32 {} (.uint .w32) (.cons 1#32 { noState := true } .string .nil)) .nil)).eq := by
  refine (C72_enum_eq_partial true exVars exDv true _ _ exAccepted rfl).1 ⟨by decide, exDistinct, ?_, ?_⟩
  · intro v hv
    simp only [exVars, List.mem_cons, List.not_mem_nil, or_false] at hv
    rcases hv with rfl | rfl
    · exact .inr (by decide)
    · exact .inl rfl
  · intro v hv
    simp only [exVars, List.mem_cons, List.not_mem_nil, or_false] at hv
    rcases hv with rfl | rfl
    · exact .inr (by decide)
    · exact .inl rfl

/-! ## Comparing enums, where it goes wrong -/

/-- A variant with fields `a` and `other_a` of the same type. -/
def otherVars (t : Ty) : List Var :=
  [⟨"A", 0#32, ⟨false, [(⟨false, "a"⟩, ⟨0#32, {}, t⟩), (⟨false, "other_a"⟩, ⟨1#32, {}, t⟩)], false, none, "runtime"⟩⟩]

/-- The derived `==` of such an enum compiles, and finds values different from themselves: `other_a` is read from the pattern of the other value, where it is
the `a` of it (`enum.rs:132-149`, `field.rs:340-353`). -/
theorem C72_false_enum_eq (t : Ty) (x y : t.El) (h : t.eq x y = false) :
    ∃ eq, enumEq (otherVars t) (.cons 0#32 false (.cons 0#32 {} t (.cons 1#32 {} t .nil)) .nil) = some eq ∧
      eq ⟨Rt.dflt, .inl (x, y, ())⟩ ⟨Rt.dflt, .inl (x, y, ())⟩ = false := by
  have hk : Named (otherVars t) := named_iff.2 ⟨by simp [otherVars], fun v hv => by
    rw [otherVars, List.mem_singleton] at hv
    subst hv
    exact .inr (show ["a", "other_a"].Nodup by decide)⟩
  have hd : ∀ v ∈ otherVars t, ∀ d ∈ v.item.dfields, alias d ∉ keywords ∧ alias d ≠ "other" := by
    intro v hv d hd
    rw [otherVars, List.mem_singleton] at hv
    subst hv
    simp only [Item.dfields] at hd
    rcases hd with _ | ⟨_, _ | ⟨_, hd⟩⟩
    · exact ⟨show "a" ∉ keywords by decide, show "a" ≠ "other" by decide⟩
    · exact ⟨show "other_a" ∉ keywords by decide, show "other_a" ≠ "other" by decide⟩
    · cases hd
  have he : eqArms (otherVars t) = some [("A", [((false, 0), (true, 0)), ((true, 0), (true, 1))])] := by
    rw [eqArms_eq hk hd]
    rfl
  simp only [enumEq, need_true hk.names, need_true hk.members, he, Option.bind_eq_bind, Option.bind_some]
  refine ⟨_, rfl, ?_⟩
  show runEq (.cons 0#32 {} t (.cons 1#32 {} t .nil)) (x, y, ()) (x, y, ()) [((false, 0), (true, 0)), ((true, 0), (true, 1))] = false
  have h2 : sameValue (side (.cons 0#32 {} t (.cons 1#32 {} t .nil)) (x, y, ()) (x, y, ()) (true, 0))
      (side (.cons 0#32 {} t (.cons 1#32 {} t .nil)) (x, y, ()) (x, y, ()) (true, 1)) = false :=
    (sameValue_same t x y).trans h
  rw [runEq, runEq, h2]
  split <;> rfl

/-- 1 and 2 in the two fields. -/
example : ∃ eq, enumEq (otherVars (.uint .w32)) (.cons 0#32 false (.cons 0#32 {} (.uint .w32) (.cons 1#32 {} (.uint .w32) .nil)) .nil) = some eq ∧
    eq ⟨Rt.dflt, .inl (1#32, 2#32, ())⟩ ⟨Rt.dflt, .inl (1#32, 2#32, ())⟩ = false :=
  C72_false_enum_eq (.uint .w32) 1#32 2#32 (by decide)

end Steit.Derive
