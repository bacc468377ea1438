import Verif.Spec.Bodies

/-!
# How a generated file opens and closes
-/

namespace Steit.Gen.Spec

open Conformance

/-- The namespaces of the client library that generated classes use (`steit/src/gen/generators/csharp.rs:39-45`). -/
def libraryNamespaces : List Text :=
  [text! "Steit.Builtins", text! "Steit.Codec", text! "Steit.Collections", text! "Steit.State", text! "Steit.State.Event"]

/-- A file that opens with `using` lines for the given namespaces, then has one namespace up to the last line
(`steit/src/gen/generators/csharp.rs:36-62`). -/
def Framed (text ns : Text) (used : List Text) : Prop := ∃ body,
  text = unlines ([text! "using System;", []] ++ used.map (fun u => text! "using " ++ u ++ text! ";") ++
      [[], text! "namespace " ++ ns ++ text! " {"]) ++ body ++ unlines [text! "}"]

end Steit.Gen.Spec
