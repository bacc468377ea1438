import Verif.Model.CSharpGen

/-!
# Well-bracketed, indented text
-/

namespace Steit.Gen.Spec

/-- Brackets. -/
inductive Br
  | brace
  | paren
  deriving DecidableEq

/-- The brackets open after a line, given those open before it (the innermost first); `none` if a bracket is closed that is not the
innermost open one, or at a line break. -/
def close : List Br → Text → Option (List Br)
  | st, [] => some st
  | st, c :: cs =>
    if c = '{' then close (.brace :: st) cs
    else if c = '(' then close (.paren :: st) cs
    else if c = '}' then match st with
      | .brace :: st => close st cs
      | _ => none
    else if c = ')' then match st with
      | .paren :: st => close st cs
      | _ => none
    else if c = '\n' then none
    else close st cs

/-- Brackets closed by the first characters of a line. -/
def lead : Text → Nat
  | [] => 0
  | c :: cs => if c = '}' ∨ c = ')' then lead cs + 1 else 0

/-- Lines, between two stacks of open brackets. A line is empty, or indented by `size` for each open bracket, those not counted that it
begins by closing; after the indentation, it does not begin with a space. -/
inductive Laid (size : Nat) : List Br → Text → List Br → Prop
  | nil {st} : Laid size st [] st
  | blank {st t st'} : Laid size st t st' → Laid size st ('\n' :: t) st'
  | line {st c l st' t st''} : c ≠ ' ' → close st (c :: l) = some st' → Laid size st' t st'' →
      Laid size st (List.replicate ((st.length - lead (c :: l)) * size) ' ' ++ (c :: l) ++ '\n' :: t) st''

/-- Characters of names: no brackets, no line breaks, no spaces. -/
def Plain (c : Char) : Prop := c ∉ ['{', '}', '(', ')', '\n', ' ']

instance (c : Char) : Decidable (Plain c) := inferInstanceAs (Decidable (_ ∉ _))

/-- Names. -/
def IsName (t : Text) : Prop := ∀ c ∈ t, Plain c

instance (t : Text) : Decidable (IsName t) := inferInstanceAs (Decidable (∀ c ∈ t, _))

mutual
/-- All names in a type are names. -/
def NamedField : FieldTypeMeta → Prop
  | .type t => NamedType t
  | .typeParam p => IsName p.toList

/-- See `NamedField`. -/
def NamedType : TypeMeta → Prop
  | .primitive name _ => ∀ n, name.csharp = some n → IsName n.toList
  | .ref name args => IsName name.csharpName.toList ∧ NamedArgs args

/-- See `NamedField`. -/
def NamedArgs : TypeArgs → Prop
  | .nil => True
  | .cons a as => NamedField a ∧ NamedArgs as
end

/-- All names in a struct are names. -/
structure NamedStruct (s : StructMeta) : Prop where
  name : IsName s.name.csharpName.toList
  typeParams : ∀ p ∈ s.typeParams, IsName p.toList
  fields : ∀ f ∈ s.fields, IsName f.name.csharpName.toList ∧ NamedField f.ty

/-- All names in a message are names. -/
def Named : MessageMeta → Prop
  | .struct s => NamedStruct s
  | .enum e => IsName e.name.csharpName.toList ∧ (∀ p ∈ e.typeParams, IsName p.toList) ∧ ∀ v ∈ e.variants, NamedStruct v.ty

/-- Changing the case of a character of a name gives characters of names. -/
def KeepsNames (cm : CaseMap) : Prop := ∀ c, Plain c → IsName (cm.upper c) ∧ IsName (cm.lower c)

mutual
/-- Every primitive type in a type has a name in C#. -/
def KnownField : FieldTypeMeta → Prop
  | .type t => KnownType t
  | .typeParam _ => True

/-- See `KnownField`. -/
def KnownType : TypeMeta → Prop
  | .primitive name _ => name.csharp ≠ none
  | .ref _ args => KnownArgs args

/-- See `KnownField`. -/
def KnownArgs : TypeArgs → Prop
  | .nil => True
  | .cons a as => KnownField a ∧ KnownArgs as
end

/-! ## Calls of a writer -/

/-- Calls of a writer. -/
inductive Call
  | indent
  | outdent
  | write (t : Text)
  | newline
  | writeIndentation

/-- How much a sequence of calls indents in sum. -/
def balance : List Call → Int
  | [] => 0
  | .indent :: cs => balance cs + 1
  | .outdent :: cs => balance cs - 1
  | _ :: cs => balance cs

/-- `n` is the largest balance of a final segment of the calls: the level of a writer whose `outdent` does nothing at level 0. -/
def Level (cs : List Call) (n : Nat) : Prop :=
  (∃ l r, cs = l ++ r ∧ balance r = n) ∧ ∀ l r, cs = l ++ r → balance r ≤ n

/-- What a call writes at a level. -/
def written (size level : Nat) : Call → Text
  | .write t => t
  | .newline => ['\n']
  | .writeIndentation => List.replicate (level * size) ' '
  | _ => []

/-! ## Names in several parts -/

/-- The parts of a name between underscores. -/
def parts : Text → List Text
  | [] => [[]]
  | c :: cs =>
    if c = '_' then [] :: parts cs
    else match parts cs with
      | [] => [[c]]
      | p :: ps => (c :: p) :: ps

/-- A name with its first character in upper case. -/
def capitalized (cm : CaseMap) : Text → Text
  | [] => []
  | c :: cs => cm.upper c ++ cs

/-- A lower-case letter and its upper-case one, each the image of the other. -/
def Letter (cm : CaseMap) (c : Char) : Prop := c ≠ '_' ∧ ∃ u, cm.upper c = [u] ∧ cm.lower u = [c] ∧ cm.isUpper u = true

/-- A character without case, or of lower case. -/
def Small (cm : CaseMap) (c : Char) : Prop := c ≠ '_' ∧ cm.isUpper c = false ∧ cm.lower c = [c]

/-- Names in snake case: parts beginning with a letter, in lower case. -/
def Snake (cm : CaseMap) (t : Text) : Prop := ∀ p ∈ parts t, ∃ c cs, p = c :: cs ∧ Letter cm c ∧ ∀ x ∈ cs, Small cm x

/-- Names in camel case: an upper-case letter, then letters and digits. -/
def Camel (cm : CaseMap) (t : Text) : Prop :=
  ∃ u us, t = u :: us ∧ (∃ c, Letter cm c ∧ cm.upper c = [u] ∧ cm.lower u = [c]) ∧
    ∀ x ∈ us, Small cm x ∨ cm.isUpper x = true ∧ ∃ c, Letter cm c ∧ cm.upper c = [x] ∧ cm.lower x = [c]

end Steit.Gen.Spec
