import Verif.Model.Ops

/-!
# Calls that fail

What is left of a state, and of the log, when a call panics because the logger refuses an entry (`.unwrap()` of the
`io::Result` of every logging method: `steit/src/types/list.rs:67,75,100`, `steit/src/types/map/map.rs:63,77`,
`steit-derive/src/derive/field.rs:268,291`), and somebody catches the panic (`catch_unwind`, or a thread that is joined) and
goes on using the object. `Ty.run` (`Verif/Model/Ops.lean`) has nothing to say about that: there a panic ends everything.

Simplifications: an entry is recorded wholly or not at all (loggers that have sent the first bytes of an entry when they fail:
`Verif/Props/Broken.lean`); closures passed to `*_with` methods run against loggers that do not fail.
-/

namespace Steit

/-- What the inner logger does with an entry: record it, return an `io::Error`, or panic (as
`PanicLogger`, `steit/src/log/loggers/panic.rs:8-12`). -/
inductive Verdict
  | stored
  | error
  | panics
  deriving DecidableEq

/-- A world whose loggers may fail: what they will do with the successive entries that reach them, and which of their mutexes
are poisoned (the thread holding the lock panicked, `std::sync::Mutex`).
(`steit/src/log/logger.rs:5-15`, `steit/src/log/loggers/writer.rs:34-41`.) -/
structure Fallible where
  world : World
  verdicts : Nat → Verdict
  poisoned : Nat → Bool

/-- What is left after a call: did it panic, and what `&mut self` then holds.
(The `.unwrap()` of logging, as in `steit/src/types/list.rs:53-71`, `steit-derive/src/derive/field.rs:297-330`.) -/
structure Left (σ : Type) where
  panicked : Bool
  self : σ

/-- A call that may fail.
(The `.unwrap()` of logging, as in `steit/src/types/list.rs:53-71`, `steit-derive/src/derive/field.rs:297-330`.) -/
abbrev Attempt (σ : Type) : Type := Fallible → Left σ × Fallible

/-- `Runtime::log(..).unwrap()`, `steit/src/rt/runtime.rs:121-123` with `steit/src/rt/logger.rs:31-39`: `false` if it panics. An
error returned by the inner logger leaves the lock alone; a panic in it poisons the mutex, after which `lock().unwrap()`
panics. A paused logger does not call the inner one. -/
def Fallible.log (w : Fallible) (id : Nat) (e : Entry) : Bool × Fallible :=
  if w.poisoned id = true then (false, w)
  else if (w.world.loggers id).paused = 0 then
    match w.verdicts 0 with
    | .stored => (true, { w with world := w.world.onLogger id (fun l => l.log e), verdicts := fun n => w.verdicts (n + 1) })
    | .error => (false, { w with verdicts := fun n => w.verdicts (n + 1) })
    | .panics => (false, { w with
        verdicts := fun n => w.verdicts (n + 1)
        poisoned := fun i => if i = id then true else w.poisoned i })
  else (true, w)

/-- `Runtime::log_multi(..).unwrap()`, `steit/src/rt/runtime.rs:125-127` with `steit/src/log/logger.rs:8-14`: one entry after the
other, up to the first that fails. -/
def Fallible.logMulti (w : Fallible) (id : Nat) : List Entry → Bool × Fallible
  | [] => (true, w)
  | e :: es =>
    match w.log id e with
    | (true, w) => w.logMulti id es
    | (false, w) => (false, w)

/-- The pattern of all mutating methods: prepare (pause, run a closure, unpause, serialize), log, and only then change `self`
(`commit`). If the preparation or the logging panics `self` is as before. With a poisoned mutex the call panics before it has
changed anything (whether or not part of the preparation, which has no lasting effect then, comes first).
(`steit-derive/src/derive/field.rs:297-330`, `steit/src/types/list.rs:53-111`, `steit/src/types/map/map.rs:61-79`.) -/
def logThen {α σ : Type} (id : Nat) (prepare : Exec α) (entries : α → List Entry) (commit : α → Left σ) (self : σ) : Attempt σ :=
  fun w =>
    if w.poisoned id = true then (⟨true, self⟩, w)
    else
      match prepare w.world with
      | (.error _, world) => (⟨true, self⟩, { w with world })
      | (.ok a, world) =>
        match ({ w with world } : Fallible).logMulti id (entries a) with
        | (true, w) => (commit a, w)
        | (false, w) => (⟨true, self⟩, w)

/-- A call that has nothing to do.
(The `.unwrap()` of logging, as in `steit/src/types/list.rs:53-71`, `steit-derive/src/derive/field.rs:297-330`.) -/
def idle {σ : Type} (self : σ) : Attempt σ := fun w => (⟨false, self⟩, w)

/-- A call on a nested object: it changes that object where it is.
(The `.unwrap()` of logging, as in `steit/src/types/list.rs:53-71`, `steit-derive/src/derive/field.rs:297-330`.) -/
def Attempt.inside {σ τ : Type} (x : Attempt σ) (put : σ → τ) : Attempt τ := fun w =>
  match x w with
  | (r, w) => (⟨r.panicked, put r.self⟩, w)

/-- One part of a call after the other, unless the first panics.
(The `.unwrap()` of logging, as in `steit/src/types/list.rs:53-71`, `steit-derive/src/derive/field.rs:297-330`.) -/
def Attempt.andThen {σ : Type} (x : Attempt σ) (next : σ → Attempt σ) : Attempt σ := fun w =>
  match x w with
  | (⟨true, v⟩, w) => (⟨true, v⟩, w)
  | (⟨false, v⟩, w) => next v w

/-- `List::push_with`, `steit/src/types/list.rs:60-71`. -/
def attemptPushWith {α : Type} (d : Dict α) (m : Mode) (l : ListV α) (getItem : Rt → Exec α) : Attempt (ListV α) :=
  logThen l.rt.logger
    (do
      l.rt.pauseLogger
      let item ← getItem (l.rt.nested (fieldNo l.items.length))
      l.rt.unpauseLogger
      let bytes ← toBytesNow d m item
      pure (item, bytes))
    (fun a => [.listPush l.rt.path a.2])
    (fun a => ⟨false, { l with items := l.items ++ [a.1] }⟩) l

/-- `List::pop`, `steit/src/types/list.rs:73-80`. -/
def attemptPop {α : Type} (l : ListV α) : Attempt (ListV α) :=
  if l.items ≠ [] then
    logThen l.rt.logger (pure ()) (fun _ => [.listPop l.rt.path]) (fun _ => ⟨false, { l with items := l.items.dropLast }⟩) l
  else idle l

/-- `List::swap_remove`, `steit/src/types/list.rs:82-111`. If `removed.runtime().sibling(..)` panics the items are already
swapped. -/
def attemptSwapRemove {α : Type} (d : Dict α) (m : Mode) (l : ListV α) (index : Nat) : Attempt (ListV α) :=
  match l.items[index]?, l.items.getLast? with
  | some removed, some last =>
    if index + 1 = l.items.length then attemptPop l
    else
      logThen l.rt.logger (toBytesNow d m last)
        (fun bytes => [.listPop l.rt.path, .update (l.rt.path ++ [fieldNo index]) bytes])
        (fun _ =>
          if d.wire = .sized then
            match (match d.runtime removed with
              | some rt => rt.sibling (fieldNo index)
              | none => .error .panic) with
            | .ok runtime => ⟨false, { l with items := vecSwapRemove l.items index (d.setRuntime runtime last) }⟩
            | .error _ => ⟨true, { l with items := vecSwapRemove l.items index last }⟩
          else ⟨false, { l with items := vecSwapRemove l.items index last }⟩) l
  | _, _ => idle l

/-- Calls on a list and its items; as `runList`. (`steit/src/types/list.rs:53-111`.) -/
def attemptList {α ω : Type} (d : Dict α) (attempt : Mode → ω → α → Attempt α) (m : Mode) (op : ListOp α ω) (l : ListV α) :
    Attempt (ListV α) :=
  match op with
  | .item i op =>
    match l.items[i]? with
    | some x => (attempt m op x).inside (fun x => { l with items := l.items.set i x })
    | none => idle l
  | .push x => attemptPushWith d m l (fun runtime => pure (d.setRuntime runtime x))
  | .pushWith f => attemptPushWith d m l f
  | .pop => attemptPop l
  | .swapRemove i => attemptSwapRemove d m l i

/-- Calls on a map and its values, `steit/src/types/map/map.rs:61-79`; as `runMap`. -/
def attemptMap {α ω : Type} (d : Dict α) (attempt : Mode → ω → α → Attempt α) (m : Mode) (op : MapOp α ω) (v : MapV α) :
    Attempt (MapV α) :=
  match op with
  | .value k op =>
    match entriesGet k v.entries with
    | some x => (attempt m op x).inside (fun x => { v with entries := entriesInsert k x v.entries })
    | none => idle v
  | .insert k x =>
    logThen v.rt.logger (toBytesNow d m x) (fun bytes => [.update (v.rt.path ++ [k]) bytes])
      (fun _ => ⟨false, { v with entries := entriesInsert k x v.entries }⟩) v
  | .insertWith k f =>
    logThen v.rt.logger
      (do
        v.rt.pauseLogger
        let x ← f (v.rt.nested k)
        v.rt.unpauseLogger
        let bytes ← toBytesNow d m x
        pure (x, bytes))
      (fun a => [.update (v.rt.path ++ [k]) a.2])
      (fun a => ⟨false, { v with entries := entriesInsert k a.1 v.entries }⟩) v
  | .remove k =>
    logThen v.rt.logger (pure ()) (fun _ => [.mapRemove v.rt.path k])
      (fun _ => ⟨false, { v with entries := entriesRemove k v.entries }⟩) v

/-- The part of a setter after the variant reset, `steit-derive/src/derive/field.rs:292-331`; as `runField`. -/
def attemptField {α ω : Type} (isState : Bool) (tag : U32) (d : Dict α) (attempt : Mode → ω → α → Attempt α) (m : Mode)
    (runtime : Rt) (op : FieldOp α ω) (v : α) : Attempt α :=
  match op with
  | .inner op => attempt m op v
  | .set x =>
    if isState then
      logThen runtime.logger (toBytesNow d m (d.setRuntime (runtime.nested tag) x))
        (fun bytes => [.update (runtime.path ++ [tag]) bytes])
        (fun _ => ⟨false, d.setRuntime (runtime.nested tag) x⟩) v
    else idle x
  | .setWith f =>
    if isState then
      logThen runtime.logger
        (do
          runtime.pauseLogger
          let x ← f (runtime.nested tag)
          runtime.unpauseLogger
          let bytes ← toBytesNow d m x
          pure (x, bytes))
        (fun a => [.update (runtime.path ++ [tag]) a.2])
        (fun a => ⟨false, a.1⟩) v
    else idle v

/-- Generated setters of an enum, `steit-derive/src/derive/field.rs:262-338`; as `runEnum`. The variant reset assigns `*self`
before the rest of the setter runs. -/
def attemptEnum {γ : Type} (d : Dict (EnumV γ)) (vs : VariantsD γ) (m : Mode) (tag : U32) (isSet : Bool)
    (fields : Rt → γ → Attempt γ) (v : EnumV γ) : Attempt (EnumV γ) :=
  Attempt.andThen
    (if vs.tagOf v.val ≠ tag ∧ isSet = true then
      match v.rt.parent with
      | .error _ => fun w => (⟨true, v⟩, w)
      | .ok runtime =>
        match vs.ctor tag (some (runtime.nested tag)) with
        | some val =>
          logThen runtime.logger (toBytesNow d m ⟨runtime.nested tag, val⟩) (fun bytes => [.update runtime.path bytes])
            (fun _ => ⟨false, ⟨runtime.nested tag, val⟩⟩) v
        | none => idle v
    else idle v)
    (fun v => (fields v.rt v.val).inside (fun val => { v with val }))

mutual
/-- Try a call; as `Ty.run`.
(`steit/src/types/list.rs:53-111`, `steit/src/types/map/map.rs:61-79`, `steit-derive/src/derive/field.rs:247-338`, `steit/src/impls/box.rs:37-59`.) -/
def Ty.attempt : (t : Ty) → Mode → t.Op → t.El → Attempt t.El
  | .box t, m, op, v => t.attempt m op v
  | .list t, m, op, v => attemptList t.dict t.attempt m op v
  | .map _ t, m, op, v => attemptMap t.dict t.attempt m op v
  | .struct true _ fs, m, op, v => (fs.attempt m v.rt op v.fields).inside (fun fields => { v with fields })
  | .enum true cached fs vs, m, op, v =>
    attemptEnum (Ty.enum true cached fs vs).dict (variantsCons 0#32 cached (fs.dict true) (vs.dict true)) m
      (match op with
        | .inl _ => 0#32
        | .inr op => vs.opTag op)
      (match op with
        | .inl op => fs.isSet op
        | .inr op => vs.isSet op)
      (fun rt val =>
        match op, val with
        | .inl op, .inl x => (fs.attempt m rt op x).inside Sum.inl
        | .inr op, .inr x => (vs.attempt m rt op x).inside Sum.inr
        | _, val => idle val)
      v
  | .uint _, _, op, _ => nomatch op
  | .sint _, _, op, _ => nomatch op
  | .bool, _, op, _ => nomatch op
  | .string, _, op, _ => nomatch op
  | .bytes, _, op, _ => nomatch op
  | .vec _, _, op, _ => nomatch op
  | .array _ _, _, op, _ => nomatch op
  | .tuple _, _, op, _ => nomatch op
  | .option _, _, op, _ => nomatch op
  | .hashMap _ _, _, op, _ => nomatch op
  | .struct false _ _, _, op, _ => nomatch op
  | .enum false _ _ _, _, op, _ => nomatch op

/-- Try a call concerning a field; as `Fields.run`.
(`steit-derive/src/derive/field.rs:247-338`, `steit-derive/src/derive/struct.rs:223-238`.) -/
def Fields.attempt : (fs : Fields) → Mode → Rt → fs.Op → fs.El → Attempt fs.El
  | .nil, _, _, op, _ => nomatch op
  | .cons tag attrs t _, m, rt, .inl op, v =>
    (attemptField (!attrs.noState) tag t.dict t.attempt m rt op v.1).inside (fun x => (x, v.2))
  | .cons _ _ _ fs, m, rt, .inr op, v => (fs.attempt m rt op v.2).inside (fun y => (v.1, y))

/-- Try a call concerning a variant; as `Variants.run`.
(`steit-derive/src/derive/field.rs:247-338`, `steit-derive/src/derive/enum.rs:122-127`.) -/
def Variants.attempt : (vs : Variants) → Mode → Rt → vs.Op → vs.El → Attempt vs.El
  | .nil, _, _, op, _ => nomatch op
  | .cons _ _ fs _, m, rt, .inl op, .inl x => (fs.attempt m rt op x).inside Sum.inl
  | .cons _ _ _ vs, m, rt, .inr op, .inr x => (vs.attempt m rt op x).inside Sum.inr
  | .cons _ _ _ _, _, _, _, v => idle v
end

end Steit
