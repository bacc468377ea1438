import Verif.Spec.Bodies

/-!
# Methods that clear event handlers

Events are given by the names of the properties they are for.
-/

namespace Steit.Gen.Spec

open Conformance

/-- `Clear‹Prop›UpdateHandlers`: on one line, unless it is the only one (`steit/src/gen/generators/csharp.rs:175-200`). -/
def clearOne (n : Nat) (many : Bool) (prop : Text) : List Text :=
  if many then [deep n [text! "public static void Clear", prop, text! "UpdateHandlers() { On", prop, text! "Update = null; }"]]
  else [
    deep n [text! "public static void Clear", prop, text! "UpdateHandlers() {"],
    deep (n + 1) [text! "On", prop, text! "Update = null;"],
    deep n [text! "}"]]

/-- `ClearUpdateHandlers` (`steit/src/gen/generators/csharp.rs:202-228`). -/
def clearEvery (n : Nat) (props : List Text) : List Text :=
  if props = [] then [deep n [text! "public static void ClearUpdateHandlers() { }"]]
  else deep n [text! "public static void ClearUpdateHandlers() {"] :: props.map (fun p => deep (n + 1) [text! "On", p, text! "Update = null;"]) ++
    [deep n [text! "}"]]

/-- The methods of the class of a struct or a variant. -/
def Clears (text : Text) (n : Nat) (props : List Text) : Prop :=
  (∀ p ∈ props, Has text (clearOne (n + 1) (decide (1 < props.length)) p)) ∧ Has text (clearEvery (n + 1) props)

/-- The method of the class of an enum (`steit/src/gen/generators/csharp.rs:490-493`). -/
def ClearsEnum (text : Text) (n : Nat) : Prop := Has text [
  deep (n + 1) [text! "public static void ClearUpdateHandlers() {"],
  deep (n + 2) [text! "OnUpdate = null;"],
  deep (n + 1) [text! "}"]]

end Steit.Gen.Spec
