import Verif.Model.LogEntryFile

/-!
# Bodies of generated methods

What `Model/Classes.lean` takes generated methods to do that it does not read off the text: their lines. `n` is the depth of the class,
`type` its name with type parameters.
-/

namespace Steit.Gen.Spec

open Conformance

/-- A line at a depth, of four spaces each. -/
def deep (n : Nat) (parts : List Text) : Text := List.replicate (n * 4) ' ' ++ parts.flatten

/-- Lines as a part of a text. -/
def Has (text : Text) (ls : List Text) : Prop := ∃ a b, text = a ++ unlines ls ++ b

/-- `Deserialize`: construct, then `Replace`, without events (`steit/src/gen/generators/csharp.rs:229-240`, `494-505`). -/
def deserializeLines (n : Nat) (access type var : Text) : List Text := [
  deep (n + 1) [access, text! " static ", type, text! " Deserialize(IReader reader, Path path = null) {"],
  deep (n + 2) [text! "var ", var, text! " = new ", type, text! "(path);"],
  deep (n + 2) [var, text! ".Replace(reader, shouldNotify: false);"],
  deep (n + 2) [text! "return ", var, text! ";"],
  deep (n + 1) [text! "}"]]

/-- Entries for lists and maps are not for other states (`steit/src/gen/generators/csharp.rs:338-345`, `543-546`). -/
def replayLines (n : Nat) : List Text := [
  deep (n + 1) [text! "public void ReplayListPush(IReader reader) { throw new NotSupportedException(); }"],
  deep (n + 1) [text! "public void ReplayListPop() { throw new NotSupportedException(); }"],
  deep (n + 1) [text! "public void ReplayMapRemove(UInt32 key) { throw new NotSupportedException(); }"],
  []]

/-- `MaybeNotify`: tell, if asked to, and give the new value (`steit/src/gen/generators/csharp.rs:346-367`). -/
def maybeNotifyLines (n : Nat) (type : Text) : List Text := [
  deep (n + 1) [text! "private TValue MaybeNotify<TValue>("],
  deep (n + 2) [text! "UInt32 tag,"],
  deep (n + 2) [text! "TValue newValue,"],
  deep (n + 2) [text! "TValue oldValue,"],
  deep (n + 2) [text! "EventHandler<FieldUpdateEventArgs<TValue, ", type, text! ">> handler,"],
  deep (n + 2) [text! "bool shouldNotify"],
  deep (n + 1) [text! ") {"],
  deep (n + 2) [text! "if (shouldNotify) {"],
  deep (n + 3) [text! "var args = new FieldUpdateEventArgs<TValue, ", type, text! ">(tag, newValue, oldValue, this);"],
  deep (n + 3) [text! "handler?.Invoke(this, args);"],
  deep (n + 2) [text! "}"],
  [],
  deep (n + 2) [text! "return newValue;"],
  deep (n + 1) [text! "}"],
  deep n [text! "}"]]

/-- `GetNested` of an enum: the variant, by its tag (`steit/src/gen/generators/csharp.rs:522-524`). -/
def enumNestedLines (n : Nat) : List Text := [
  deep (n + 1) [text! "public IState GetNested(UInt32 tag) {"],
  deep (n + 2) [text! "return tag == this.Tag ? this.Variant : null;"],
  deep (n + 1) [text! "}"]]

/-- `UpdateAndNotify` of an enum: tell, if asked to, and set tag and variant (`steit/src/gen/generators/csharp.rs:547-558`). -/
def updateAndNotifyLines (n : Nat) (type : Text) : List Text := [
  deep (n + 1) [text! "private void UpdateAndNotify(UInt32 newTag, IState newVariant, bool shouldNotify) {"],
  deep (n + 2) [text! "if (shouldNotify) {"],
  deep (n + 3) [text! "var args = new VariantUpdateEventArgs<", type, text! ">(newTag, newVariant, this.Tag, this.Variant, this);"],
  deep (n + 3) [type, text! ".OnUpdate?.Invoke(this, args);"],
  deep (n + 2) [text! "}"],
  [],
  deep (n + 2) [text! "this.Tag = newTag;"],
  deep (n + 2) [text! "this.Variant = newVariant;"],
  deep (n + 1) [text! "}"]]

/-- The bodies in the class of a struct or a variant. -/
def StructBodies (text : Text) (n : Nat) (access type : Text) : Prop :=
  (∃ var, Has text (deserializeLines n access type var)) ∧ Has text (replayLines n ++ maybeNotifyLines n type)

/-- The bodies in the class of an enum. -/
def EnumBodies (text : Text) (n : Nat) (type : Text) : Prop :=
  (∃ var, Has text (deserializeLines n (text! "public") type var)) ∧ Has text (enumNestedLines n) ∧ Has text (replayLines n ++ updateAndNotifyLines n type)

/-- Constants for tags, right after the line that opens the class (`steit/src/gen/generators/csharp.rs:392-405`). A variant is here the name
of its class, this name in camel case, and its tag in decimal. -/
def constantLines (n : Nat) (type : Text) (vs : List (Text × Text × Text)) : List Text :=
  deep n [text! "public sealed partial class ", type, text! " : IEnumState {"] ::
    vs.map (fun v => deep (n + 1) [text! "public const UInt32 ", v.2.1, text! "Tag = ", v.2.2, text! ";"]) ++ [[]]

/-- Properties that give the variant if it is of a class (`steit/src/gen/generators/csharp.rs:414-422`). -/
def variantLinesOf (n : Nat) (vs : List (Text × Text × Text)) : List Text :=
  [] :: vs.map (fun v => deep (n + 1) [text! "public ", v.1, text! " ", v.1, text! "Variant { get { return this.Variant as ", v.1, text! "; } }"]) ++ [[]]

/-- Methods that make a value by its tag (`steit/src/gen/generators/csharp.rs:476-482`). -/
def newLines (n : Nat) (name : Text) (vs : List (Text × Text × Text)) : List Text :=
  [] :: vs.map (fun v => deep (n + 1) [text! "public static ", name, text! " New", v.2.1, text! "(Path path = null) { return new ", name,
    text! "(path, ", v.2.2, text! "); }"]) ++ [[]]

/-- How a constructor starts: check the type arguments, set the path (`steit/src/gen/generators/csharp.rs:112-137`, `425-451`).
`head` is its first line, `spaced` tells if an empty line comes in between. -/
def constructorLines (n : Nat) (head : List Text) (params : List Text) (spaced : Bool) : List Text :=
  deep (n + 1) head :: params.map (fun p => deep (n + 2) [text! "StateFactory.ValidateType(typeof(", p, text! "));"]) ++
    (if spaced then [[]] else []) ++ [deep (n + 2) [text! "this.Path = path ?? Path.Root;"]]

/-- How the constructor of an enum goes on: set the tag, then the variant by the tag (`steit/src/gen/generators/csharp.rs:447-457`). -/
def setTagLines (n : Nat) (spaced : Bool) : List Text :=
  (if spaced then [[]] else []) ++ [deep (n + 2) [text! "this.Tag = tag;"], [], deep (n + 2) [text! "switch (tag) {"]]

end Steit.Gen.Spec
