import Verif.Model.Ops
import Verif.Model.Replay

/-!
# The repository's unit tests, run on the model

Every assertion of the unit tests in `steit/src/impls/*.rs`, `steit/src/types/bytes.rs`, `steit/src/types/list.rs`,
`steit/src/types/map/map.rs` and `steit/src/rt/size_cache.rs`, with the function under test replaced by its model. The tests are the
authors' own expectations of the code, written independently of this development; that the model meets them says that it was
transcribed faithfully at these points. They are tests of the *model* (evaluated by the kernel) and no substitute for
the theorems in `Verif/Props`.

Tests run in debug mode, as `cargo test` does. `Key` of the map tests (five keys, 1 to 5) is replaced by `u8`.
-/

namespace Steit.Conformance

/-! ## `steit/src/test_util.rs` -/

/-- Byte literals. -/
def b (l : List Nat) : Bytes := l.map (BitVec.ofNat 8)

/-- Size caches as `SizeCache::new` leaves them, `steit/src/rt/size_cache.rs:23-28`. -/
def fresh : Prog.Mem := fun _ => 0

/-- `assert_size`, `steit/src/test_util.rs:62-64`. -/
def assertSize (t : Ty) (v : t.El) (size : Nat) : Bool :=
  match t.dict.sizeFrom .debug fresh v with
  | .ok n => n == size
  | .error _ => false

/-- `assert_serialize`, `steit/src/test_util.rs:66-74`. -/
def assertSerialize (t : Ty) (v : t.El) (bytes : List Nat) : Bool :=
  match t.dict.toBytesFrom .debug fresh v with
  | .ok out => out == b bytes
  | .error _ => false

/-- `assert_serialize_nested`, `steit/src/test_util.rs:76-85`. -/
def assertSerializeNested (t : Ty) (v : t.El) (tag : Option U32) (bytes : List Nat) : Bool :=
  match ((do let _ ← t.dict.cacheSize .debug [] v; t.dict.serializeNested .debug [] v tag true : Prog Bytes).run fresh).1 with
  | .ok out => out == b bytes
  | .error _ => false

/-- `assert_merge`, `steit/src/test_util.rs:91-98`. -/
def assertMerge (t : Ty) (v : t.El) (bytes : List Nat) (expected : t.El) : Bool :=
  match t.dict.merge .debug v (b bytes) with
  | .ok v' _ => t.eq v' expected
  | .err _ _ => false

/-- `assert_deserialize`, `steit/src/test_util.rs:104-106`. -/
def assertDeserialize (t : Ty) (bytes : List Nat) (expected : t.El) : Bool := assertMerge t t.dict.dflt bytes expected

/-- `assert_ser_de`, `steit/src/test_util.rs:108-110`. -/
def assertSerDe (t : Ty) (v : t.El) : Bool :=
  match t.dict.toBytesFrom .debug fresh v with
  | .ok out => match t.dict.merge .debug t.dict.dflt out with
    | .ok v' _ => t.eq v' v
    | .err _ _ => false
  | .error _ => false

abbrev i8 := Ty.sint .w8
abbrev i32 := Ty.sint .w32
abbrev u8 := Ty.uint .w8
abbrev u16 := Ty.uint .w16
abbrev u32 := Ty.uint .w32
abbrev u64 := Ty.uint .w64

/-- An `i32`. -/
def n (x : Int) : i32.El := BitVec.ofInt 32 x

/-- `Foo`, `steit/src/test_util.rs:25-37`. -/
abbrev foo : Ty := .struct false true (.cons 0#32 {} i32 (.cons 1#32 {} i32 .nil))

/-- `Foo::new`. -/
def Foo (x y : Int) : foo.El := ⟨Rt.dflt, n x, n y, ()⟩

/-- `Foo::empty`. -/
def Foo.empty : foo.El := foo.dict.dflt

/-- `Point`, `steit/src/test_util.rs:39-59`. -/
abbrev point : Ty := .struct true true (.cons 0#32 {} i32 (.cons 1#32 {} i32 (.cons 2#32 {} i32 .nil)))

/-- `Point::new`. -/
def Point (runtime : Rt) (x y z : Int) : point.El := ⟨runtime, n x, n y, n z, ()⟩

/-! ## `steit/src/impls/bool.rs:43-63` -/

example : assertSerialize .bool false [0] := by decide +kernel
example : assertSerialize .bool true [1] := by decide +kernel
example : assertSerializeNested .bool false none [0] := by decide +kernel
example : assertSerializeNested .bool true none [1] := by decide +kernel
example : assertSerializeNested .bool false (some 10#32) [] := by decide +kernel
example : assertSerializeNested .bool true (some 10#32) [80, 1] := by decide +kernel
example : assertMerge .bool false [0] false := by decide +kernel
example : assertMerge .bool false [1] true := by decide +kernel
example : assertMerge .bool false [128, 128, 128, 128, 128, 128, 128, 128, 128, 2] true := by decide +kernel
example : assertMerge .bool true [0] false := by decide +kernel
example : assertMerge .bool true [42] true := by decide +kernel

/-! ## `steit/src/impls/varint.rs:199-228` -/

example : assertSerialize i32 (n 0) [0] := by decide +kernel
example : assertSerialize i32 (n (-1)) [1] := by decide +kernel
example : assertSerialize i32 (n 1) [2] := by decide +kernel
example : assertSerialize i32 (n (-2)) [3] := by decide +kernel
example : assertSerialize i32 (n 2) [4] := by decide +kernel
example : assertDeserialize i32 [0] (n 0) := by decide +kernel
example : assertDeserialize i32 [1] (n (-1)) := by decide +kernel
example : assertDeserialize i32 [2] (n 1) := by decide +kernel
example : assertDeserialize i32 [3] (n (-2)) := by decide +kernel
example : assertDeserialize i32 [4] (n 2) := by decide +kernel
example : assertSerDe u64 (BitVec.ofInt 64 (-1)) := by decide +kernel
example : assertSerDe u64 (~~~0#64) := by decide +kernel
example : assertSerDe u32 (BitVec.ofInt 32 (-1)) := by decide +kernel
example : assertSerDe i32 (n 1000000) := by decide +kernel
example : assertSerDe i32 (n 42) := by decide +kernel
example : assertSerializeNested i32 (n 0) none [0] := by decide +kernel
example : assertSerializeNested i32 (n 1) none [2] := by decide +kernel
example : assertSerializeNested i32 (n 0) (some 10#32) [] := by decide +kernel
example : assertSerializeNested i32 (n 1) (some 10#32) [80, 2] := by decide +kernel

/-! ## `steit/src/impls/vec.rs:65-90` -/

example : assertSize (.vec u8) [] 0 := by decide +kernel
example : assertSize (.vec i32) [n 0] 1 := by decide +kernel
example : assertSize (.vec i32) [n 0, n 0, n 0] 3 := by decide +kernel
example : assertSize (.vec i32) [n 1337] 2 := by decide +kernel
example : assertSerialize (.vec u8) [] [] := by decide +kernel
example : assertSerialize (.vec i32) [n 0, n 0, n 0] [0, 0, 0] := by decide +kernel
example : assertSerialize (.vec i32) [n 1337] [242, 20] := by decide +kernel
example : assertSerializeNested (.vec u8) [] none [0] := by decide +kernel
example : assertSerializeNested (.vec i32) [n 0] none [1, 0] := by decide +kernel
example : assertSerializeNested (.vec u8) [] (some 10#32) [] := by decide +kernel
example : assertSerializeNested (.vec i32) [n 0] (some 10#32) [82, 1, 0] := by decide +kernel
example : assertMerge (.vec u8) [] [] [] := by decide +kernel
example : assertMerge (.vec i32) [] [1] [n (-1)] := by decide +kernel
example : assertMerge (.vec i32) [n (-1)] [] [n (-1)] := by decide +kernel
example : assertMerge (.vec i32) [n (-1)] [0, 242, 20, 0, 3, 0] [n (-1), n 0, n 1337, n 0, n (-2), n 0] := by decide +kernel

/-! ## `steit/src/impls/array.rs:84-102` -/

/-- An array. -/
def arr (k : Nat) (xs : List i32.El) (h : xs.length = k) : (Ty.array k i32).El := ⟨xs, h⟩

example : assertSize (.array 2 i32) (arr 2 [n 0, n 0] rfl) 2 := by decide +kernel
example : assertSize (.array 4 i32) (arr 4 [n 1337, n 1337, n 1337, n 1337] rfl) 8 := by decide +kernel
example : assertSerialize (.array 1 i32) (arr 1 [n 0] rfl) [0] := by decide +kernel
example : assertSerialize (.array 3 i32) (arr 3 [n 1337, n 1338, n 42] rfl) [242, 20, 244, 20, 84] := by decide +kernel
example : assertSerializeNested (.array 3 i32) (arr 3 [n 0, n 0, n 0] rfl) none [3, 0, 0, 0] := by decide +kernel
example : assertSerializeNested (.array 3 i32) (arr 3 [n 42, n 42, n 42] rfl) (some 2#32) [18, 3, 84, 84, 84] := by decide +kernel
example : assertMerge (.array 3 i32) (arr 3 [n 1, n 2, n 3] rfl) [1, 2, 3] (arr 3 [n (-1), n 1, n (-2)] rfl) := by decide +kernel
example : assertMerge (.array 3 i32) (arr 3 [n 1, n 2, n 3] rfl) [1] (arr 3 [n (-1), n 2, n 3] rfl) := by decide +kernel

/-! ## `steit/src/impls/option.rs:66-105` and `steit/src/impls/box.rs:76-114` (whose tests are about `Option`, too, but for three) -/

/-- `cached_size` of both files: what the caches of `Some(Foo::new(-1, 0))` hold before and after `cache_size`. -/
example : (let v : (Ty.option foo).El := some (Foo (-1) 0)
    let r := (Ty.option foo).dict.cacheSize .debug [] v |>.run fresh
    ((foo.dict.cachedSize .debug [0] (Foo (-1) 0)).run fresh).1.toOption == some 0 && r.1.toOption == some 3 &&
      ((foo.dict.cachedSize .debug [0] (Foo (-1) 0)).run r.2).1.toOption == some 2) := by decide +kernel
example : assertSize (.option u8) none 0 := by decide +kernel
example : assertSize (.option i32) (some (n 0)) 1 := by decide +kernel
example : assertSize (.option i32) (some (n 1)) 1 := by decide +kernel
example : assertSize (.option i32) (some (n 1337)) 2 := by decide +kernel
example : assertSerialize (.option u8) none [] := by decide +kernel
example : assertSerialize (.option i32) (some (n 0)) [0] := by decide +kernel
example : assertSerialize (.option i32) (some (n 1337)) [242, 20] := by decide +kernel
example : assertSerialize (.option foo) (some Foo.empty) [0] := by decide +kernel
example : assertSerialize (.option foo) (some (Foo (-1) (-2))) [4, 0, 1, 8, 3] := by decide +kernel
example : assertSerializeNested (.option u8) none none [0] := by decide +kernel
example : assertSerializeNested (.option i32) (some (n 1)) none [1, 2] := by decide +kernel
example : assertSerializeNested (.option u8) none (some 10#32) [] := by decide +kernel
example : assertSerializeNested (.option i32) (some (n 1)) (some 10#32) [82, 1, 2] := by decide +kernel
example : assertSerializeNested (.option foo) (some Foo.empty) (some 10#32) [82, 1, 0] := by decide +kernel
example : assertSerializeNested (.option foo) (some (Foo (-1) (-2))) (some 10#32) [82, 5, 4, 0, 1, 8, 3] := by decide +kernel
example : assertMerge (.option i32) (some (n 1)) [] (some (n 1)) := by decide +kernel
example : assertMerge (.option i32) none [0] (some (n 0)) := by decide +kernel
example : assertMerge (.option i32) (some (n 0)) [242, 20] (some (n 1337)) := by decide +kernel
example : assertMerge (.option foo) (some (Foo (-1) (-2))) [2, 8, 4] (some (Foo (-1) 2)) := by decide +kernel
example : assertMerge (.option foo) none [2, 8, 4] (some (Foo 0 2)) := by decide +kernel

example : assertSize (.box i32) (n 0) 1 := by decide +kernel
example : assertSize (.box i32) (n 1) 1 := by decide +kernel
example : assertSize (.box i32) (n 1337) 2 := by decide +kernel

/-! ## `steit/src/impls/string.rs:38-59` -/

/-- A string, by its UTF-8 bytes. -/
def str (l : List Nat) (h : utf8Valid (b l) = true) : Ty.string.El := ⟨b l, h⟩

def s33 := str [51, 51] (by decide +kernel)
def sPi := str [207, 128] (by decide +kernel)

example : assertSize .string (str [50, 51, 52] (by decide +kernel)) 3 := by decide +kernel
example : assertSize .string sPi 2 := by decide +kernel
example : assertSize .string (str [207, 128, 32, 105, 115, 32, 114, 111, 117, 103, 104, 108, 121, 32, 51, 46, 49, 52] (by decide +kernel)) 18 := by
  decide +kernel
example : assertSerialize .string (str [50, 51, 52] (by decide +kernel)) [50, 51, 52] := by decide +kernel
example : assertSerialize .string sPi [207, 128] := by decide +kernel
example : assertSerializeNested .string s33 none [2, 51, 51] := by decide +kernel
example : assertSerializeNested .string sPi none [2, 207, 128] := by decide +kernel
example : assertSerializeNested .string s33 (some 10#32) [82, 2, 51, 51] := by decide +kernel
example : assertSerializeNested .string sPi (some 10#32) [82, 2, 207, 128] := by decide +kernel
example : assertMerge .string (str [102, 111, 111] (by decide +kernel)) [51, 51] s33 := by decide +kernel
example : assertMerge .string (str [98, 97, 114] (by decide +kernel)) [207, 128] sPi := by decide +kernel

/-! ## `steit/src/impls/hash_map.rs:52-92` -/

example : assertSize (.hashMap u8 i8) [] 0 := by decide +kernel
example : assertSize (.hashMap i32 i32) [(n 0, n 1)] 2 := by decide +kernel
example : assertSize (.hashMap i32 i32) [(n 0, n 1), (n 1, n 2), (n 2, n 3)] 6 := by decide +kernel
example : assertSize (.hashMap i32 i32) [(n 1337, n 1337)] 4 := by decide +kernel
example : assertSerialize (.hashMap u8 i8) [] [] := by decide +kernel
example : assertSerialize (.hashMap u16 i32) [(1337#16, n 1337)] [185, 10, 242, 20] := by decide +kernel
example : assertSerializeNested (.hashMap u8 i8) [] none [0] := by decide +kernel
example : assertSerializeNested (.hashMap i32 i32) [(n 0, n 1)] none [2, 0, 2] := by decide +kernel
example : assertSerializeNested (.hashMap u8 i8) [] (some 10#32) [] := by decide +kernel
example : assertSerializeNested (.hashMap i32 i32) [(n 0, n 1)] (some 10#32) [82, 2, 0, 2] := by decide +kernel
example : assertMerge (.hashMap u8 i8) [] [] [] := by decide +kernel
example : assertMerge (.hashMap u8 i8) [] [2, 1] [(2#8, BitVec.ofInt 8 (-1))] := by decide +kernel
example : assertMerge (.hashMap i32 i32) [(n 2, n (-1))] [] [(n 2, n (-1))] := by decide +kernel
example : assertSerDe (.hashMap i32 i32) [(n 0, n 1), (n 1, n 2), (n 2, n 3)] := by decide +kernel
example : assertSerDe (.hashMap i32 i32) [(n 0, n (-1)), (n (-1), n 2), (n 2, n (-3))] := by decide +kernel
example : assertSerDe (.hashMap i32 i32) [(n (-1337), n 1337), (n (-1000000), n 1000000)] := by decide +kernel
example : assertSerDe (.hashMap i32 i32) [(n 42, n 42)] := by decide +kernel

/-! ## `steit/src/types/bytes.rs:76-107` -/

/-- `Bytes::from_value`, `steit/src/types/bytes.rs:14-17`. -/
def ofValue (t : Ty) (v : t.El) : Ty.bytes.El := (t.dict.toBytesFrom .debug fresh v).toOption.getD []

example : assertSize .bytes (ofValue (.option u8) none) 0 := by decide +kernel
example : assertSize .bytes (ofValue (.option i32) (some (n 1337))) 2 := by decide +kernel
example : assertSize .bytes (ofValue i32 (n 0)) 1 := by decide +kernel
example : assertSize .bytes (ofValue foo Foo.empty) 0 := by decide +kernel
example : assertSize .bytes (ofValue foo (Foo (-1) (-1))) 4 := by decide +kernel
example : assertSerialize .bytes (ofValue (.option u8) none) [] := by decide +kernel
example : assertSerialize .bytes (ofValue (.option i32) (some (n 1337))) [242, 20] := by decide +kernel
example : assertSerialize .bytes (ofValue i32 (n 0)) [0] := by decide +kernel
example : assertSerialize .bytes (ofValue foo Foo.empty) [] := by decide +kernel
example : assertSerialize .bytes (ofValue foo (Foo (-1) (-1))) [0, 1, 8, 1] := by decide +kernel
example : assertSerializeNested .bytes (ofValue (.option u8) none) none [0] := by decide +kernel
example : assertSerializeNested .bytes (ofValue (.option i32) (some (n 1))) none [1, 2] := by decide +kernel
example : assertSerializeNested .bytes (ofValue i32 (n 1)) (some 10#32) [82, 1, 2] := by decide +kernel
example : assertSerializeNested .bytes (ofValue (.option u8) none) (some 10#32) [] := by decide +kernel
example : assertSerializeNested .bytes (ofValue (.option i32) (some (n 1))) (some 10#32) [82, 1, 2] := by decide +kernel
example : assertSerializeNested .bytes (ofValue (.option foo) (some Foo.empty)) (some 10#32) [82, 1, 0] := by decide +kernel
example : assertSerializeNested .bytes (ofValue (.option foo) (some (Foo (-1) (-2)))) (some 10#32) [82, 5, 4, 0, 1, 8, 3] := by
  decide +kernel
example : assertMerge .bytes (ofValue (.option u8) none) [242, 20] (ofValue (.option i32) (some (n 1337))) := by decide +kernel
example : assertMerge .bytes (ofValue foo (Foo (-1) (-1))) [8, 3] (b [0, 1, 8, 1, 8, 3]) := by decide +kernel

/-! ## States with a logger -/

/-- A world with fresh loggers and size caches. -/
def world : World := ⟨fun _ => ⟨0, []⟩, fun _ => fresh⟩

/-- `Runtime::with_logger_returned(BufferLogger::new())`, `steit/src/rt/runtime.rs:48-52`: a root runtime whose logger is logger 1. -/
def root : Rt := ⟨1, []⟩

/-- Make some calls, one after the other. -/
def play (t : Ty) : List t.Op → t.El → Exec t.El
  | [], v => pure v
  | op :: ops, v => do
    let v ← t.run .debug op v
    play t ops v

/-- `logger.lock().unwrap().clear()`. -/
def clear : Exec Unit := Exec.onLogger 1 (fun l => { l with entries := [] })

/-- What a test leaves behind: the state and `logger.lock().unwrap().bytes()`. -/
def outcome {α : Type} (x : Exec α) : Option (α × Bytes) :=
  match x.run world with
  | (.ok v, w) => match (BufferLogger.mk (w.loggers 1).entries).bytes .debug (fun _ => fresh) with
    | .ok bytes => some (v, bytes)
    | .error _ => none
  | (.error _, _) => none

/-- The calls of a test, and the log it expects. -/
def assertLog (t : Ty) (before after : List t.Op) (log : List Nat) : Bool :=
  match outcome (do let v ← play t before (t.dict.withRuntime root); (if before.isEmpty then pure () else clear); play t after v) with
  | some (_, bytes) => bytes == b log
  | none => false

/-- The state some calls lead to. -/
def built (t : Ty) (ops : List t.Op) : t.El :=
  match (play t ops (t.dict.withRuntime root)).run world with
  | (.ok v, _) => v
  | (.error _, _) => t.dict.dflt

/-- `replay`, `steit/src/test_util.rs:112-114`. `none` when `unwrap` panics. -/
def replayed (t : Ty) (v : t.El) (bytes : List Nat) : Option t.El :=
  match replay t.dict .debug v (b bytes) with
  | .ok v' _ => some v'
  | .err _ _ => none

/-- The error of a replay. -/
def replayErr (t : Ty) (v : t.El) (bytes : List Nat) : Option Err :=
  match replay t.dict .debug v (b bytes) with
  | .ok _ _ => none
  | .err _ e => some e

/-- `merge`, `steit/src/test_util.rs:87-89`. -/
def merged (t : Ty) (v : t.El) (bytes : List Nat) : Option t.El :=
  match t.dict.merge .debug v (b bytes) with
  | .ok v' _ => some v'
  | .err _ _ => none

/-- `push_with(|runtime| Point::new(runtime, …))`. -/
def pushPoint (x y z : Int) : (Ty.list point).Op := .pushWith (fun runtime => pure (Point runtime x y z))

/-- `item.set_x(item.x + 1)`, on the item at an index. -/
def bump (i : Nat) (x : Int) : (Ty.list point).Op := .item i (.inl (.set (n x)))

/-- Is the list's item at an index equal to this one? -/
def item (t : Ty) (l : Option (Ty.list t).El) (i : Nat) (x : Option t.El) : Bool :=
  match l with
  | some l => optionEq t.eq l.items[i]? x
  | none => false

/-! ## `steit/src/types/list.rs:276-475` -/

/-- push_and_get -/
example : item i32 (some (built (.list i32) [.push (n 1)])) 0 (some (n 1)) := by decide +kernel
/-- push_and_check_log_01 -/
example : assertLog (.list i32) [] [.push (n 1), .push (n 2)] [4, 8, 10, 1, 2, /-*-/ 4, 8, 10, 1, 4] := by decide +kernel
/-- push_and_check_log_02 -/
example : assertLog (.list point) [] [pushPoint (-1) (-1) (-1), pushPoint 2 2 2]
    [9, 8, 10, 6, 0, 1, 8, 1, 16, 1, /-*-/ 9, 8, 10, 6, 0, 4, 8, 4, 16, 4] := by decide +kernel
/-- remove_and_get -/
example : item i32 (some (built (.list i32) [.push (n 0), .push (n 1), .swapRemove 0])) 0 (some (n 1)) := by decide +kernel
/-- remove_and_check_log -/
example : assertLog (.list i32) [.push (n 1), .push (n 2), .push (n 3)] [.swapRemove 1] [1, 9, 7, 0, 2, 1, 1, 10, 1, 6] := by
  decide +kernel
/-- iter -/
example : (built (.list i32) [.push (n 1), .push (n 2), .push (n 3), .swapRemove 0]).items = [n 3, n 2] := by decide +kernel
/-- iter_mut_update_and_check_log -/
example : assertLog (.list point) [pushPoint (-1) (-1) (-1), pushPoint 2 2 2, pushPoint 3 3 3] [bump 0 0, bump 1 3, bump 2 4]
    [8, 0, 2, 2, 0, 0, 10, 1, 0, /-*-/ 8, 0, 2, 2, 1, 0, 10, 1, 6, /-*-/ 8, 0, 2, 2, 2, 0, 10, 1, 8] := by decide +kernel
/-- serialize_01 -/
example : assertSerialize (.list i32) (built (.list i32) [.push (n 1), .push (n 0), .swapRemove 0, .push (n 2), .push (n 3)])
    [0, 4, 6] := by decide +kernel
/-- serialize_02 -/
example : assertSerialize (.list point)
    (built (.list point) [pushPoint (-1) (-1) (-1), pushPoint 2 2 2, pushPoint 3 3 3, .swapRemove 1])
    [6, 0, 1, 8, 1, 16, 1, /-*-/ 6, 0, 6, 8, 6, 16, 6] := by decide +kernel
/-- merge_no_log (merging does not involve loggers at all in the model) -/
example : item i32 (merged (.list i32) (built (.list i32) [.push (n 10), .push (n 20)]) [40, 60]) 3 (some (n 30)) := by decide +kernel
/-- merge_push_new -/
example : item point (merged (.list point) (built (.list point) [pushPoint (-1) (-1) (-1)]) [2, 16, 7]) 1
    (some (Point Rt.dflt 0 0 (-4))) := by decide +kernel
/-- replay_push_no_log (neither does replaying) -/
example : item i32 (replayed (.list i32) (built (.list i32) []) [4, 8, 10, 1, 1]) 0 (some (n (-1))) := by decide +kernel
/-- replay_push_next_index -/
example : item point (replayed (.list point) (built (.list point) [pushPoint (-1) (-1) (-1)]) [9, 8, 10, 6, 0, 3, 8, 2, 16, 10]) 1
    (some (Point Rt.dflt (-2) 1 5)) := by decide +kernel
/-- replay_update_out_of_bounds: `InvalidData`, "index 0 out of bounds" -/
example : replayErr (.list i32) (built (.list i32) []) [7, 0, 2, 1, 0, 10, 1, 1] = some .invalidData := by decide +kernel
/-- replay_update -/
example : item i32 (replayed (.list i32) (built (.list i32) [.push (n 0)]) [7, 0, 2, 1, 0, 10, 1, 1]) 0 (some (n (-1))) := by
  decide +kernel
/-- replay_update_nested -/
example : item point (replayed (.list point) (built (.list point) [pushPoint (-1) (-1) (-1)]) [8, 0, 2, 2, 0, 2, 10, 1, 100]) 0
    (some (Point Rt.dflt (-1) (-1) 50)) := by decide +kernel
/-- replay_swap_remove -/
example : let r := (replayed (.list point) (built (.list point) [pushPoint (-1) (-1) (-1), pushPoint 2 2 2])
      [1, 9, /-*-/ 12, 0, 2, 1, 0, 10, 6, 0, 4, 8, 4, 16, 4])
    item point r 0 (some (Point Rt.dflt 2 2 2)) && item point r 1 none := by decide +kernel

/-! ## `steit/src/types/map/map.rs:289-524` -/

/-- `insert_with(key, |runtime| Point::new(runtime, …))`. -/
def insPoint {k : KeyTy} (key : U32) (x y z : Int) : (Ty.map k point).Op :=
  .insertWith key (fun runtime => pure (Point runtime x y z))

/-- `value.set_x(value.x + 1)`, on the value under a key. -/
def bumpAt {k : KeyTy} (key : U32) (x : Int) : (Ty.map k point).Op := .value key (.inl (.set (n x)))

/-- Is the map's value under a key equal to this one? -/
def value (k : KeyTy) (t : Ty) (v : Option (Ty.map k t).El) (key : U32) (x : Option t.El) : Bool :=
  match v with
  | some v => optionEq t.eq (mapGet v key) x
  | none => false

/-- insert_and_get -/
example : value .u8 i32 (some (built (.map .u8 i32) [.insert 17#32 (n 23)])) 17#32 (some (n 23)) := by decide +kernel
/-- insert_and_check_log_01 -/
example : assertLog (.map .u16 i32) [] [.insert 1#32 (n 1), .insert 2#32 (n 2)]
    [7, 0, 2, 1, 1, 10, 1, 2, /-*-/ 7, 0, 2, 1, 2, 10, 1, 4] := by decide +kernel
/-- insert_and_check_log_02 -/
example : assertLog (.map .u32 point) [] [insPoint 3#32 (-1) (-1) (-1), insPoint 7#32 2 2 2]
    [12, 0, 2, 1, 3, 10, 6, 0, 1, 8, 1, 16, 1, /-*-/ 12, 0, 2, 1, 7, 10, 6, 0, 4, 8, 4, 16, 4] := by decide +kernel
/-- remove_and_get -/
example : value .u8 i32 (some (built (.map .u8 i32) [.insert 2#32 (n 0), .insert 3#32 (n 1), .remove 3#32])) 3#32 none := by
  decide +kernel
/-- remove_and_check_log -/
example : assertLog (.map .u32 i32) [.insert 1#32 (n 10), .insert 2#32 (n 20), .insert 3#32 (n 30)] [.remove 2#32] [3, 12, 8, 2] := by
  decide +kernel
/-- iter -/
example : (built (.map .u8 i32) [.insert 1#32 (n 10), .insert 2#32 (n 20), .insert 3#32 (n 30), .remove 1#32]).entries =
    [(3#32, n 30), (2#32, n 20)] := by decide +kernel
/-- iter_mut_update_and_check_log -/
example : assertLog (.map .u8 point) [insPoint 2#32 (-1) (-1) (-1), insPoint 4#32 2 2 2, insPoint 5#32 3 3 3]
    [bumpAt 2#32 0, bumpAt 4#32 3, bumpAt 5#32 4]
    [8, 0, 2, 2, 2, 0, 10, 1, 0, /-*-/ 8, 0, 2, 2, 4, 0, 10, 1, 6, /-*-/ 8, 0, 2, 2, 5, 0, 10, 1, 8] := by decide +kernel
/-- serialize_01 -/
example : assertSerialize (.map .u8 i32)
    (built (.map .u8 i32) [.insert 2#32 (n 20), .insert 3#32 (n 30), .remove 2#32, .insert 6#32 (n 60), .insert 7#32 (n 70)])
    [24, 60, 48, 120, 56, 140, 1] := by decide +kernel
/-- serialize_02 -/
example : assertSerialize (.map .u8 point)
    (built (.map .u8 point) [insPoint 2#32 (-1) (-1) (-1), insPoint 3#32 2 2 2, insPoint 1#32 3 3 3, .remove 3#32])
    [18, 6, 0, 1, 8, 1, 16, 1, /-*-/ 10, 6, 0, 6, 8, 6, 16, 6] := by decide +kernel
/-- merge_no_log -/
example : value .u16 i32 (merged (.map .u16 i32) (built (.map .u16 i32) [.insert 1#32 (n 10), .insert 2#32 (n 20)]) [24, 60]) 3#32
    (some (n 30)) := by decide +kernel
/-- merge_update_nested -/
example : value .u8 point
    (merged (.map .u8 point) (built (.map .u8 point) [insPoint 1#32 (-1) (-1) (-1), insPoint 10#32 2 2 2]) [82, 2, 8, 5]) 10#32
    (some (Point Rt.dflt 2 (-3) 2)) := by decide +kernel
/-- merge_push_new -/
example : value .u8 point (merged (.map .u8 point) (built (.map .u8 point) []) [18, 2, 16, 7]) 2#32
    (some (Point Rt.dflt 0 0 (-4))) := by decide +kernel
/-- replay_insert_no_log -/
example : value .u8 i32 (replayed (.map .u8 i32) (built (.map .u8 i32) []) [7, 0, 2, 1, 7, 10, 1, 1]) 7#32 (some (n (-1))) := by
  decide +kernel
/-- replay_update -/
example : value .u16 i32 (replayed (.map .u16 i32) (built (.map .u16 i32) [.insert 1#32 (n 111)]) [7, 0, 2, 1, 1, 10, 1, 1]) 1#32
    (some (n (-1))) := by decide +kernel
/-- replay_update_nested -/
example : value .u32 point
    (replayed (.map .u32 point) (built (.map .u32 point) [insPoint 3#32 (-1) (-1) (-1)]) [8, 0, 2, 2, 3, 2, 10, 1, 100]) 3#32
    (some (Point Rt.dflt (-1) (-1) 50)) := by decide +kernel
/-- replay_remove -/
example : let r := (replayed (.map .u32 point) (built (.map .u32 point) [insPoint 10#32 (-1) (-1) (-1), insPoint 15#32 2 2 2])
      [3, 12, 8, 10])
    value .u32 point r 10#32 none && value .u32 point r 15#32 (some (Point Rt.dflt 2 2 2)) := by decide +kernel
/-- replay_remove_key_not_found: `InvalidData`, "key 1 not found" -/
example : replayErr (.map .u16 i32) (built (.map .u16 i32) []) [4, 12, 2, 1, 1] = some .invalidData := by decide +kernel

/-! ## `steit/src/rt/size_cache.rs:74-90` -/

/-- `assert_back_and_forth`. -/
def assertBackAndForth (x : Nat) : Bool := ((do Prog.set [] x; Prog.get [] : Prog Nat).run fresh).1.toOption == some x

example : assertBackAndForth 0 := by decide +kernel
example : assertBackAndForth 1 := by decide +kernel
example : assertBackAndForth 1337 := by decide +kernel
example : assertBackAndForth 1000000007 := by decide +kernel

end Steit.Conformance
