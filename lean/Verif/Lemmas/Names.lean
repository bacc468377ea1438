import Verif.Lemmas.CSharpGen

/-!
# Calls of a writer; names in camel and snake case
-/

namespace Steit.Gen

open Spec

/-! ## Calls -/

/-- A call of a writer. -/
def Spec.Call.run : Call → Writer → Writer
  | .indent, w => w.indent
  | .outdent, w => w.outdent
  | .write t, w => w.write t
  | .newline, w => w.newline
  | .writeIndentation, w => w.writeIndentation

/-- Calls of a writer, in order. -/
def runCalls (cs : List Call) (w : Writer) : Writer := cs.foldl (fun w c => c.run w) w

theorem runCalls_append (a b : List Call) (w : Writer) : runCalls (a ++ b) w = runCalls b (runCalls a w) := List.foldl_append

theorem runCalls_size (cs : List Call) (w : Writer) : (runCalls cs w).indentSize = w.indentSize := by
  induction cs generalizing w with
  | nil => rfl
  | cons c cs ih =>
    show (runCalls cs (c.run w)).indentSize = _
    rw [ih]
    cases c <;> first | rfl | (simp only [Spec.Call.run, Writer.outdent]; split <;> rfl)

theorem balance_append (a b : List Call) : balance (a ++ b) = balance a + balance b := by
  induction a with
  | nil => simp [balance]
  | cons c a ih => cases c <;> simp only [List.cons_append, balance, ih] <;> omega

/-- Final segments of a sequence with one more call. -/
theorem snoc_split {cs l r : List Call} {c : Call} (h : cs ++ [c] = l ++ r) : r = [] ∨ ∃ r', r = r' ++ [c] ∧ cs = l ++ r' := by
  rcases List.eq_nil_or_concat r with rfl | ⟨r', x, rfl⟩
  · exact .inl rfl
  · right
    rw [List.concat_eq_append, ← List.append_assoc] at h
    obtain ⟨h1, h2⟩ := List.append_inj' h rfl
    cases h2
    exact ⟨r', by simp, h1⟩

theorem level_snoc {cs : List Call} {n : Nat} (h : Level cs n) (c : Call) (m : Nat) (hm : (m : Int) = max 0 (n + balance [c])) :
    Level (cs ++ [c]) m := by
  obtain ⟨⟨l, r, he, hr⟩, hmax⟩ := h
  refine ⟨?_, ?_⟩
  · by_cases hz : (0 : Int) ≤ n + balance [c]
    · exact ⟨l, r ++ [c], by rw [he, List.append_assoc], by rw [balance_append, hr]; omega⟩
    · exact ⟨cs ++ [c], [], by simp, by simp only [balance]; omega⟩
  · intro l' r' he'
    rcases snoc_split he' with rfl | ⟨r'', rfl, hc⟩
    · simp only [balance]; omega
    · have := hmax l' r'' hc
      rw [balance_append]
      omega

theorem runCalls_level (cs : List Call) (size : Nat) : Level cs (runCalls cs (.new size)).level := by
  suffices h : ∀ (done rest : List Call), Level done (runCalls done (.new size)).level →
      Level (done ++ rest) (runCalls (done ++ rest) (.new size)).level by
    exact h [] cs ⟨⟨[], [], rfl, rfl⟩, fun l r h => by
      obtain ⟨rfl, rfl⟩ := List.append_eq_nil_iff.1 h.symm
      simp [balance]⟩
  intro done rest
  induction rest generalizing done with
  | nil => intro h; rw [List.append_nil]; exact h
  | cons c rest ih =>
    intro h
    have := ih (done ++ [c])
    rw [List.append_assoc] at this
    refine this (level_snoc h c _ ?_)
    rw [runCalls_append]
    show (((Spec.Call.run c (runCalls done (.new size))).level : Nat) : Int) = _
    generalize runCalls done (.new size) = w
    cases c with
    | indent => simp only [Spec.Call.run, Writer.indent, balance]; omega
    | outdent =>
      simp only [Spec.Call.run, Writer.outdent, balance]
      split
      · simp only; omega
      · omega
    | write t => simp only [Spec.Call.run, Writer.write, balance]; omega
    | newline => simp only [Spec.Call.run, Writer.newline, balance]; omega
    | writeIndentation => simp only [Spec.Call.run, Writer.writeIndentation, Writer.write, balance]; omega

/-! ## Case -/

variable {cm : CaseMap}

theorem parts_ne_nil (t : Text) : parts t ≠ [] := by
  cases t with
  | nil => exact List.cons_ne_nil _ _
  | cons c cs =>
    unfold parts
    split
    · exact List.cons_ne_nil _ _
    · split <;> exact List.cons_ne_nil _ _

theorem parts_cons {c : Char} {cs : Text} (h : c ≠ '_') : ∃ p ps, parts cs = p :: ps ∧ parts (c :: cs) = (c :: p) :: ps := by
  cases hp : parts cs with
  | nil => exact absurd hp (parts_ne_nil cs)
  | cons p ps => exact ⟨p, ps, rfl, by simp only [parts, h, if_false, hp]⟩

theorem camel_parts : ∀ t : Text, toCamelCase cm t true = ((parts t).map (capitalized cm)).flatten ∧
    ∀ p ps, parts t = p :: ps → toCamelCase cm t false = p ++ (ps.map (capitalized cm)).flatten
  | [] => by
    refine ⟨rfl, ?_⟩
    intro p ps h
    cases h
    rfl
  | c :: cs => by
    have ih := camel_parts cs
    by_cases hc : c = '_'
    · subst hc
      have hp : parts ('_' :: cs) = [] :: parts cs := by simp [parts]
      refine ⟨?_, ?_⟩
      · rw [hp]; simp only [toCamelCase, if_true, ih.1, List.map_cons, List.flatten_cons, capitalized, List.nil_append]
      · intro p ps h
        rw [hp] at h
        cases h
        simp only [toCamelCase, if_true, ih.1, List.nil_append]
    · obtain ⟨p, ps, h1, h2⟩ := parts_cons (cs := cs) hc
      refine ⟨?_, ?_⟩
      · rw [h2]
        simp only [toCamelCase, hc, if_false, if_true, ih.2 p ps h1, List.map_cons, List.flatten_cons, capitalized, List.append_assoc]
      · intro q qs h
        rw [h2] at h
        cases h
        simp only [toCamelCase, hc, if_false, Bool.false_eq_true, ih.2 p ps h1, List.cons_append]

/-- A part in snake case. -/
def PartOk (cm : CaseMap) (p : Text) : Prop := ∃ c cs, p = c :: cs ∧ Letter cm c ∧ ∀ x ∈ cs, Small cm x

theorem snake_rest : ∀ t : Text, ((∀ p ∈ parts t, PartOk cm p) → toSnakeCaseRest cm (toCamelCase cm t true) = '_' :: t) ∧
    (∀ p ps, parts t = p :: ps → (∀ x ∈ p, Small cm x) → (∀ q ∈ ps, PartOk cm q) →
      toSnakeCaseRest cm (toCamelCase cm t false) = t)
  | [] => by
    refine ⟨fun h => ?_, fun _ _ _ _ _ => rfl⟩
    obtain ⟨c, cs, h, _⟩ := h [] List.mem_cons_self
    cases h
  | c :: cs => by
    have ih := snake_rest cs
    by_cases hc : c = '_'
    · subst hc
      have hp : parts ('_' :: cs) = [] :: parts cs := by simp [parts]
      refine ⟨fun h => ?_, fun p ps h _ hps => ?_⟩
      · rw [hp] at h
        obtain ⟨c, cs, h, _⟩ := h [] List.mem_cons_self
        cases h
      · rw [hp] at h
        cases h
        simp only [toCamelCase, if_true]
        exact ih.1 hps
    · obtain ⟨p, ps, h1, h2⟩ := parts_cons (cs := cs) hc
      refine ⟨fun h => ?_, fun q qs h hq hqs => ?_⟩
      · rw [h2] at h
        obtain ⟨c', cs', he, ⟨_, u, hu, hl, hup⟩, hsmall⟩ := h _ List.mem_cons_self
        cases he
        simp only [toCamelCase, hc, if_false, if_true, hu, List.cons_append, List.nil_append, toSnakeCaseRest, hup, hl]
        rw [ih.2 _ ps h1 hsmall fun q hq => h q (List.mem_cons_of_mem _ hq)]
      · rw [h2] at h
        cases h
        have hs := hq c List.mem_cons_self
        simp only [toCamelCase, hc, if_false, Bool.false_eq_true, toSnakeCaseRest, hs.2.1, hs.2.2, List.nil_append, List.cons_append]
        rw [ih.2 _ ps h1 (fun x hx => hq x (List.mem_cons_of_mem _ hx)) hqs]

theorem snake_camel {t : Text} (h : Snake cm t) : toSnakeCase cm (toCamelCase cm t true) = t := by
  cases t with
  | nil =>
    obtain ⟨c, cs, h, _⟩ := h [] List.mem_cons_self
    cases h
  | cons c cs =>
    by_cases hc : c = '_'
    · subst hc
      have hp : parts ('_' :: cs) = [] :: parts cs := by simp [parts]
      unfold Snake at h
      rw [hp] at h
      obtain ⟨c, cs, h, _⟩ := h [] List.mem_cons_self
      cases h
    · obtain ⟨p, ps, h1, h2⟩ := parts_cons (cs := cs) hc
      unfold Snake at h
      rw [h2] at h
      obtain ⟨c', cs', he, ⟨_, u, hu, hl, hup⟩, hsmall⟩ := h _ List.mem_cons_self
      cases he
      simp only [toCamelCase, hc, if_false, if_true, hu, List.cons_append, List.nil_append, toSnakeCase, hl]
      rw [(snake_rest cs).2 _ ps h1 hsmall fun q hq => h q (List.mem_cons_of_mem _ hq)]

theorem camel_snake {t : Text} (h : Camel cm t) : toCamelCase cm (toSnakeCase cm t) true = t := by
  obtain ⟨u, us, rfl, ⟨c, hc, hcu, hcl⟩, hus⟩ := h
  have key : ∀ us : Text, (∀ x ∈ us, Small cm x ∨ cm.isUpper x = true ∧ ∃ c, Letter cm c ∧ cm.upper c = [x] ∧ cm.lower x = [c]) →
      toCamelCase cm (toSnakeCaseRest cm us) false = us := by
    intro us
    induction us with
    | nil => intro _; rfl
    | cons x us ih =>
      intro h
      have ih := ih fun y hy => h y (List.mem_cons_of_mem _ hy)
      rcases h x List.mem_cons_self with hs | ⟨hup, c, hc, h1, h2⟩
      · simp only [toSnakeCaseRest, hs.2.1, Bool.false_eq_true, if_false, hs.2.2, List.nil_append, List.cons_append, toCamelCase, hs.1, ih]
      · simp only [toSnakeCaseRest, hup, if_true, h2, List.nil_append, List.cons_append, toCamelCase, hc.1, if_false, h1, ih]
  simp only [toSnakeCase, hcl, List.cons_append, List.nil_append, toCamelCase, hc.1, if_false, if_true, hcu, key us hus]

/-! ## ASCII -/

theorem ascii_letter {c : Char} (h1 : 97 ≤ c.toNat) (h2 : c.toNat ≤ 122) : Letter ascii c := by
  have key : ∀ n, n < 123 → 97 ≤ n → Char.ofNat n ≠ '_' ∧ (Char.ofNat n).toUpper.toLower = Char.ofNat n ∧
      (Char.ofNat n).toUpper.isUpper = true := by decide +kernel
  have := key c.toNat (by omega) h1
  rw [Char.ofNat_toNat] at this
  exact ⟨this.1, _, rfl, by simp [ascii, this.2.1], this.2.2⟩

theorem ascii_small {c : Char} (h : 97 ≤ c.toNat ∧ c.toNat ≤ 122 ∨ 48 ≤ c.toNat ∧ c.toNat ≤ 57) : Small ascii c := by
  have key : ∀ n, n < 123 → (97 ≤ n ∧ n ≤ 122 ∨ 48 ≤ n ∧ n ≤ 57) → Char.ofNat n ≠ '_' ∧ (Char.ofNat n).isUpper = false ∧
      (Char.ofNat n).toLower = Char.ofNat n := by decide +kernel
  have := key c.toNat (by omega) h
  rw [Char.ofNat_toNat] at this
  exact ⟨this.1, this.2.1, by simp [ascii, this.2.2]⟩

theorem ascii_keeps : KeepsNames ascii := by
  intro c hc
  have key : ∀ n, n < 128 → Plain (Char.ofNat n) → Plain (Char.ofNat n).toUpper ∧ Plain (Char.ofNat n).toLower := by decide +kernel
  by_cases h : c.toNat < 128
  · have := key c.toNat h (by rw [Char.ofNat_toNat]; exact hc)
    rw [Char.ofNat_toNat] at this
    exact ⟨fun x hx => by cases List.mem_singleton.1 hx; exact this.1, fun x hx => by cases List.mem_singleton.1 hx; exact this.2⟩
  · have hn : 128 ≤ c.val.toNat := by have : c.toNat = c.val.toNat := rfl; omega
    have hu : c.toUpper = c := by
      unfold Char.toUpper
      rw [dif_neg]
      rintro ⟨_, h2⟩
      have := UInt32.le_iff_toNat_le.1 h2
      have : ('z' : Char).val.toNat = 122 := by decide
      omega
    have hl : c.toLower = c := by
      unfold Char.toLower
      rw [dif_neg]
      rintro ⟨_, h2⟩
      have := UInt32.le_iff_toNat_le.1 h2
      have : ('Z' : Char).val.toNat = 90 := by decide
      omega
    exact ⟨fun x hx => by simp only [ascii, hu, List.mem_singleton] at hx; subst hx; exact hc,
      fun x hx => by simp only [ascii, hl, List.mem_singleton] at hx; subst hx; exact hc⟩

/-! ## When sources are generated -/

mutual
theorem fieldType_known : ∀ f : FieldTypeMeta, fieldType f ≠ none ↔ KnownField f
  | .type t => typeName_known t
  | .typeParam p => ⟨fun _ => trivial, fun _ h => by cases h⟩

theorem typeName_known : ∀ t : TypeMeta, typeName t ≠ none ↔ KnownType t
  | .primitive name _ => by
    simp only [typeName, KnownType, ne_eq, Option.map_eq_none_iff]
  | .ref name .nil => ⟨fun _ => trivial, fun _ h => by cases h⟩
  | .ref name (.cons a as) => by
    have h1 := fieldType_known a
    have h2 := fieldTypes_known as
    simp only [typeName, KnownType, KnownArgs, ← h1, ← h2]
    cases fieldType a with
    | none => simp
    | some x => cases fieldTypes as with
      | none => simp
      | some y => simp only; split <;> simp

theorem fieldTypes_known : ∀ as : TypeArgs, fieldTypes as ≠ none ↔ KnownArgs as
  | .nil => ⟨fun _ => trivial, fun _ h => by cases h⟩
  | .cons a as => by
    have h1 := fieldType_known a
    have h2 := fieldTypes_known as
    simp only [fieldTypes, KnownArgs, ← h1, ← h2]
    cases fieldType a with
    | none => simp
    | some x => cases fieldTypes as with
      | none => simp
      | some y => simp
end

theorem fromMetas_known : ∀ fs : List FieldMeta, CSharpField.fromMetas cm fs ≠ none ↔ ∀ f ∈ fs, KnownField f.ty
  | [] => ⟨fun _ _ h => (nomatch h), fun _ h => (nomatch h)⟩
  | f :: fs => by
    have h1 := fieldType_known f.ty
    have h2 := fromMetas_known fs
    simp only [CSharpField.fromMetas, CSharpField.fromMeta, List.mem_cons, forall_eq_or_imp, ← h1, ← h2]
    cases fieldType f.ty with
    | none => simp
    | some x => cases CSharpField.fromMetas cm fs with
      | none => simp
      | some y => simp

theorem genVariants_known {setting : CSharpSetting} : ∀ (vs : List VariantMeta) (w : Writer),
    genVariants cm setting vs w ≠ none ↔ ∀ v ∈ vs, ∀ f ∈ v.ty.fields, KnownField f.ty
  | [], _ => ⟨fun _ _ h => (nomatch h), fun _ h => (nomatch h)⟩
  | v :: vs, w => by
    have h1 := fromMetas_known (cm := cm) v.ty.fields
    simp only [genVariants, genStruct, List.mem_cons, forall_eq_or_imp, ← h1]
    cases CSharpField.fromMetas cm v.ty.fields with
    | none => simp
    | some fields =>
      simp only [ne_eq, reduceCtorEq, not_false_eq_true, true_and]
      exact genVariants_known vs _

end Steit.Gen
