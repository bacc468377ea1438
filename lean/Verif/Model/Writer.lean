/-!
# Text output of the code generator

`steit/src/gen/writer.rs`, `steit/src/gen/str_util.rs` (the same `to_snake_case` is in `steit-derive/src/str_util.rs`), and Rust's
`format!`. Strings are lists of characters.
-/

namespace Steit.Gen

/-- Strings. (`steit/src/gen/writer.rs:1-5`.) -/
abbrev Text := List Char

/-! ## `format!` -/

/-- A piece of a format string: literal text or an argument put in. (`format!` in `steit/src/gen/generators/csharp.rs:36-614`.) -/
inductive Frag
  | lit (t : Text)
  | arg (t : Text)

/-- The text of a piece. (`format!` in `steit/src/gen/generators/csharp.rs:36-614`.) -/
def Frag.text : Frag → Text
  | .lit t => t
  | .arg t => t

/-- `format!` after the format string has been split into pieces. (`format!` in `steit/src/gen/generators/csharp.rs:36-614`.) -/
def fmt : List Frag → Text
  | [] => []
  | f :: fs => f.text ++ fmt fs

open Lean in
/-- A string literal as a list of characters. (`format!` in `steit/src/gen/generators/csharp.rs:36-614`.) -/
private def quoteChars : List Char → MacroM (TSyntax `term)
  | [] => `(([] : Text))
  | c :: cs => do
    let t ← quoteChars cs
    `(List.cons $(⟨Syntax.mkCharLit c⟩) $t)

open Lean in
/-- Splits a format string in the syntax of Rust into pieces: `{}` is the next argument, `{n}` the `n`-th, `{{` and `}}` are braces.
(`format!` in `steit/src/gen/generators/csharp.rs:36-614`.) -/
private partial def quoteFrags (args : Array (TSyntax `term)) : List Char → Nat → List Char → Array (TSyntax `term) →
    MacroM (Array (TSyntax `term))
  | s, next, cur, acc => do
    let flush : MacroM (Array (TSyntax `term)) := do
      if cur.isEmpty then return acc
      let l ← quoteChars cur.reverse
      return acc.push (← `(Frag.lit $l))
    match s with
    | [] => flush
    | '{' :: '{' :: s => quoteFrags args s next ('{' :: cur) acc
    | '}' :: '}' :: s => quoteFrags args s next ('}' :: cur) acc
    | '{' :: '}' :: s =>
      let acc ← flush
      let some a := args[next]? | Macro.throwError "missing argument"
      quoteFrags args s (next + 1) [] (acc.push (← `(Frag.arg $a)))
    | '{' :: d :: '}' :: s =>
      let acc ← flush
      let some a := args[d.toNat - '0'.toNat]? | Macro.throwError "missing argument"
      quoteFrags args s next [] (acc.push (← `(Frag.arg $a)))
    | c :: s => quoteFrags args s next (c :: cur) acc

/-- `format!("…", a, b)`, split into pieces. -/
syntax (name := fmtStx) "fmt!" str term,* : term

open Lean in
macro_rules (kind := fmtStx)
  | `(fmt! $s:str $args,*) => do
    let fs ← quoteFrags args.getElems s.getString.toList 0 [] #[]
    `([$fs,*])

/-- A string literal. -/
syntax (name := litStx) "lit!" str : term

open Lean in
macro_rules (kind := litStx)
  | `(lit! $s:str) => quoteChars s.getString.toList

/-! ## `Writer` -/

/-- `Writer`, `steit/src/gen/writer.rs:1-5`. -/
structure Writer where
  indentSize : Nat
  level : Nat
  out : Text

namespace Writer

/-- `new`, `steit/src/gen/writer.rs:8-14`. -/
def new (indentSize : Nat) : Writer := ⟨indentSize, 0, []⟩

/-- `indent`, `steit/src/gen/writer.rs:20-23`. -/
def indent (w : Writer) : Writer := { w with level := w.level + 1 }

/-- `outdent`, `steit/src/gen/writer.rs:25-31`. -/
def outdent (w : Writer) : Writer := if w.level > 0 then { w with level := w.level - 1 } else w

/-- `write`, `steit/src/gen/writer.rs:33-36`. -/
def write (w : Writer) (s : Text) : Writer := { w with out := w.out ++ s }

/-- `write_indentation`, `steit/src/gen/writer.rs:38-40`. -/
def writeIndentation (w : Writer) : Writer := w.write (List.replicate (w.level * w.indentSize) ' ')

/-- `newline`, `steit/src/gen/writer.rs:42-45`. -/
def newline (w : Writer) : Writer := { w with out := w.out ++ ['\n'] }

/-- `writeln`, `steit/src/gen/writer.rs:47-49`. -/
def writeln (w : Writer) (s : Text) : Writer := w.writeIndentation.write s |>.newline

/-- `indent_writeln`, `steit/src/gen/writer.rs:51-53`. -/
def indentWriteln (w : Writer) (s : Text) : Writer := w.indent.writeln s

/-- `outdent_writeln`, `steit/src/gen/writer.rs:55-57`. -/
def outdentWriteln (w : Writer) (s : Text) : Writer := w.outdent.writeln s

/-- `end`, `steit/src/gen/writer.rs:16-18`. -/
def finish (w : Writer) : Text := w.out

end Writer

/-! ## Names -/

/-- `char::to_uppercase`, `char::to_lowercase` (several characters for some), `char::is_uppercase`: tables of the standard library.
(Used in `steit/src/gen/str_util.rs:1-47`.) -/
structure CaseMap where
  upper : Char → Text
  lower : Char → Text
  isUpper : Char → Bool

/-- The tables on ASCII, other characters unchanged. (Used in `steit/src/gen/str_util.rs:1-47`.) -/
def ascii : CaseMap := ⟨fun c => [c.toUpper], fun c => [c.toLower], Char.isUpper⟩

/-- `uncap_first_char`, `steit/src/gen/str_util.rs:1-11`. -/
def uncapFirstChar (cm : CaseMap) : Text → Text
  | [] => []
  | c :: cs => cm.lower c ++ cs

/-- `to_camel_case`, `steit/src/gen/str_util.rs:13-28`. -/
def toCamelCase (cm : CaseMap) : Text → Bool → Text
  | [], _ => []
  | c :: cs, upper =>
    if c = '_' then toCamelCase cm cs true
    else if upper then cm.upper c ++ toCamelCase cm cs false
    else c :: toCamelCase cm cs false

/-- The loop of `to_snake_case`, `steit/src/gen/str_util.rs:38-44`. -/
def toSnakeCaseRest (cm : CaseMap) : Text → Text
  | [] => []
  | c :: cs => (if cm.isUpper c then ['_'] else []) ++ cm.lower c ++ toSnakeCaseRest cm cs

/-- `to_snake_case`, `steit/src/gen/str_util.rs:30-47`. -/
def toSnakeCase (cm : CaseMap) : Text → Text
  | [] => []
  | c :: cs => cm.lower c ++ toSnakeCaseRest cm cs

end Steit.Gen
