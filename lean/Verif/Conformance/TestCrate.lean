import Verif.Conformance.RustTests

/-!
# The test crate and the bytes of the C# test program, compared on the model

`steit-derive/test-crate/src/lib.rs:276-413` makes calls on states and prints what is logged; the C# test program
`steit-csharp/tests/Test.cs` replays such logs, written out as byte literals. Here the calls of the former are made on the model, and
the bytes logged are those the latter replays (which has a few entries added by hand: they are left out, and named).
As in `Verif/Conformance/RustTests.lean` these are tests of the model.
-/

namespace Steit.Conformance

/-- The log of some calls on a new state. -/
def logOf (t : Ty) (ops : List t.Op) : Option Bytes := (outcome (play t ops (t.dict.withRuntime root))).map (·.2)

/-! ## `Hello`, `lib.rs:196-202,278-293` -/

abbrev hello : Ty := .struct true true (.cons 0#32 {} (.list i32) (.cons 1#32 { noState := true } (.vec i32) .nil))

/-- The calls of lines 281-289. -/
def helloOps : List hello.Op :=
  [ .inl (.setWith fun runtime => play (.list i32) [.push (n 1), .push (n 2), .push (n 1337)] ((Ty.list i32).dict.withRuntime runtime)),
    .inr (.inl (.set [n (-1), n (-2), n 1337])) ]

/-- `serialized: …` is what `Test.cs:11-16` deserializes. -/
example : assertSerialize hello (built hello helloOps) [2, 4, 2, 4, 242, 20, 10, 4, 1, 3, 242, 20] := by decide +kernel

/-- The one entry logged: `no_state` fields are not logged, nor are pushes to the new list. -/
example : logOf hello helloOps = some (b [10, 0, 2, 1, 0, 10, 4, 2, 4, 242, 20]) := by decide +kernel

/-! ## `Outer`, `lib.rs:204-220,297-307` -/

abbrev inner : Ty := .struct true true (.cons 0#32 {} i32 (.cons 1#32 {} .bool .nil))
abbrev outer : Ty := .struct true true (.cons 0#32 {} i32 (.cons 1#32 {} .bool (.cons 2#32 {} inner .nil)))

/-- `Inner::new(runtime)`, some setters called. -/
def newInner (ops : List inner.Op) (runtime : Rt) : Exec inner.El := play inner ops (inner.dict.withRuntime runtime)

/-- `set_foo`. -/
def setFoo (x : Int) : inner.Op := .inl (.set (n x))

/-- `set_bar`. -/
def setBar (x : Bool) : inner.Op := .inr (.inl (.set x))

/-- `Test.cs:43-50`, without its last entry, `1, 0`. -/
example : logOf outer
    [ .inl (.set (n 127)), .inr (.inl (.set true)), .inr (.inr (.inl (.setWith (newInner [setFoo 22, setBar true])))),
      .inr (.inr (.inl (.inner (setFoo 160)))), .inr (.inr (.inl (.setWith (newInner [])))) ] =
    some (b [
      8, 0, 2, 1, 0, 10, 2, 254, 1,
      7, 0, 2, 1, 1, 10, 1, 1,
      10, 0, 2, 1, 2, 10, 4, 0, 44, 8, 1,
      9, 0, 2, 2, 2, 0, 10, 2, 192, 2,
      4, 0, 2, 1, 2]) := by decide +kernel

/-! ## `Multicase`, `lib.rs:222-238,318-321` -/

abbrev multicase : Ty :=
  .enum true true (.cons 0#32 {} i32 (.cons 1#32 {} .bool .nil)) (.cons 1#32 true (.cons 0#32 {} i32 (.cons 1#32 {} .bool .nil)) .nil)

/-- `Test.cs:76-79`. -/
example : logOf multicase [.inr (.inl (.inl (.set (n 68))))] =
    some (b [
      4, 0, 10, 1, 1,
      9, 0, 2, 2, 1, 0, 10, 2, 136, 1]) := by decide +kernel

/-! ## Lists, `lib.rs:330-359` -/

/-- `Test.cs:95-103`, without its last entry. -/
example : logOf (.list inner)
    [ .pushWith (newInner [setFoo 6]), .pushWith (newInner [setFoo 77, setBar true]), .pushWith (newInner []),
      .item 1 (setFoo 68), .swapRemove 0 ] =
    some (b [
      5, 8, 10, 2, 0, 12,
      8, 8, 10, 5, 0, 154, 1, 8, 1,
      1, 8,
      9, 0, 2, 2, 1, 0, 10, 2, 136, 1,
      1, 9,
      4, 0, 2, 1, 0]) := by decide +kernel

/-- An `i8`. -/
def n8 (x : Int) : i8.El := BitVec.ofInt 8 x

/-- `Test.cs:119-125`: the call removes the middle one of three items, so the last (0) takes its place. -/
example : logOf (.list i8) [.push (n8 10), .push (n8 11), .push (n8 0), .swapRemove 1] =
    some (b [
      4, 8, 10, 1, 20,
      4, 8, 10, 1, 22,
      4, 8, 10, 1, 0,
      1, 9,
      7, 0, 2, 1, 1, 10, 1, 0]) := by decide +kernel

/-! ## Maps, `lib.rs:361-390` -/

/-- `Test.cs:141-148`, without its fourth entry. The last one differs: `Test.cs` has `3, 12, 8, 0`, with the key 0 written out, while
fields with default values are omitted (`steit/src/ser.rs:75`), so that `1, 12` is logged. -/
example : logOf (.map .u16 inner)
    [ .insertWith 5#32 (newInner [setFoo 6]), .insertWith 1#32 (newInner [setFoo 77, setBar true]), .insertWith 0#32 (newInner []),
      .value 1#32 (setFoo 68), .remove 0#32 ] =
    some (b [
      8, 0, 2, 1, 5, 10, 2, 0, 12,
      11, 0, 2, 1, 1, 10, 5, 0, 154, 1, 8, 1,
      4, 0, 2, 1, 0,
      9, 0, 2, 2, 1, 0, 10, 2, 136, 1,
      1, 12]) := by decide +kernel

/-- Both are the same entry to a reader. -/
example : [[1, 12], [3, 12, 8, 0]].map (fun l =>
    match logEntryTy.dict.deserializeNested .debug .sized (b l) with
    | .ok (e, rest) => some (Entry.ofEl e, rest)
    | .error _ => none) = [some (.mapRemove [] 0#32, []), some (.mapRemove [] 0#32, [])] := by decide +kernel

/-- `Test.cs:164-170`, without its fourth entry. -/
example : logOf (.map .u32 i8) [.insert 1#32 (n8 10), .insert 3#32 (n8 11), .insert 7#32 (n8 0), .remove 1#32] =
    some (b [
      7, 0, 2, 1, 1, 10, 1, 20,
      7, 0, 2, 1, 3, 10, 1, 22,
      7, 0, 2, 1, 7, 10, 1, 0,
      3, 12, 8, 1]) := by decide +kernel

/-! ## `OldAction`, `lib.rs:83-115,394-412`: a recursive type, unrolled twice (values at the innermost level are default ones) -/

/-- `OldAction`, with hits of a given type. -/
abbrev oldAction (hit : Ty) : Ty :=
  .enum true true (.cons 0#32 {} (.list u8) .nil)
    (.cons 1#32 true (.cons 0#32 {} u8 (.cons 1#32 {} u8 (.cons 2#32 {} (.list hit) .nil))) .nil)

/-- `OldHit`, with actions of a given type. -/
abbrev oldHit (action : Ty) : Ty :=
  .struct true true (.cons 0#32 {} (.box action) (.cons 1#32 {} (.box action) (.cons 2#32 {} (.box action)
    (.cons 3#32 {} (.box action) (.cons 4#32 {} (.box action) (.cons 5#32 {} i32 .nil))))))

/-- `OldHit`, unrolled once. -/
abbrev hit1 : Ty := oldHit (oldAction u8)

/-- A push of a new `OldHit` with `dummy` set. -/
def pushHit (dummy : Int) : (Ty.list hit1).Op :=
  .pushWith fun runtime => play hit1 [.inr (.inr (.inr (.inr (.inr (.inl (.set (n dummy)))))))] (hit1.dict.withRuntime runtime)

/-- `Test.cs:204-217`. -/
example : logOf (oldAction hit1)
    [ .inr (.inl (.inl (.set (1#8 : BitVec 8)))), .inr (.inl (.inr (.inl (.set (2#8 : BitVec 8))))),
      .inr (.inl (.inr (.inr (.inl (.setWith fun runtime =>
        play (.list hit1) [pushHit 6, pushHit 7, pushHit 8, pushHit 9] ((Ty.list hit1).dict.withRuntime runtime)))))) ] =
    some (b [
      4, 0, 10, 1, 1,
      8, 0, 2, 2, 1, 0, 10, 1, 1,
      8, 0, 2, 2, 1, 1, 10, 1, 2,
      79, 0, 2, 2, 1, 2, 10, 72,
        17, 2, 1, 0, 10, 1, 0, 18, 1, 0, 26, 1, 0, 34, 1, 0, 40, 12,
        17, 2, 1, 0, 10, 1, 0, 18, 1, 0, 26, 1, 0, 34, 1, 0, 40, 14,
        17, 2, 1, 0, 10, 1, 0, 18, 1, 0, 26, 1, 0, 34, 1, 0, 40, 16,
        17, 2, 1, 0, 10, 1, 0, 18, 1, 0, 26, 1, 0, 34, 1, 0, 40, 18]) := by decide +kernel

end Steit.Conformance
