import Verif.Model.World
import Verif.Model.Replay

/-!
# Reading and replaying as code that could log

The functions below are those of `Verif/Model/Dict.lean`, `Impls.lean`, `Collections.lean`, `Derive.lean` and `Replay.lean` once more,
statement by statement, but as programs (`Exec`) that are free to use the loggers of the values they work on: every value carries its
`Runtime`, so all of them could. That none does is C26. Methods that only return part of a value (`runtime`) are plain functions.
-/

namespace Steit

/-- The methods of a type that replaying runs: `Deserialize` (`steit/src/de/de.rs:7-39`) and `State` (`steit/src/state.rs:11-73`). -/
structure DictX (α : Type) where
  /-- `HasWireType::WIRE_TYPE` -/
  wire : WireType
  /-- `State::runtime` -/
  runtime : α → Option Rt
  /-- `Default::default` -/
  dflt : Exec α
  /-- `State::with_runtime` -/
  withRuntime : Rt → Exec α
  /-- `Deserialize::merge` -/
  merge : Mode → α → Bytes → Exec (Res α)
  /-- `State::is_root` -/
  isRoot : α → Exec (Except Err Bool)
  /-- `State::handle_update` -/
  handleUpdate : Mode → α → Bytes → Exec (Res α)
  /-- `State::handle` -/
  handle : Mode → α → List U32 → LogKind → Option U32 → Bytes → Exec (Res α)

/-- `Reader::nested` and the code run on it, `steit/src/de/reader.rs:30-36`, as `withNested`. -/
def withNestedX {α : Type} (m : Mode) (v : α) (bs : Bytes) (body : Bytes → Exec (Res α)) : Exec (Res α) :=
  match getVarint m 64 bs with
  | .error e => pure (.err v e)
  | .ok (size, rest) => do
    match ← body (rest.take size.toNat) with
    | .ok v' unread => pure (.ok v' (unread ++ rest.drop size.toNat))
    | .err v' e => pure (.err v' e)

/-- `while !reader.eof()? { step }`, `steit/src/de/reader.rs:26-28`, as `untilEof`. -/
def untilEofX {α : Type} (step : α → Bytes → Exec (Res α)) : Nat → α → Bytes → Exec (Res α)
  | _, v, [] => pure (.ok v [])
  | 0, v, _ :: _ => pure (.err v .diverge)
  | fuel + 1, v, b :: bs => do
    match ← step v (b :: bs) with
    | .ok v' rest => untilEofX step fuel v' rest
    | .err v' e => pure (.err v' e)

namespace DictX
variable {α : Type}

/-- `Deserialize::merge_nested`, `steit/src/de/de.rs:16-29`. -/
def mergeNested (d : DictX α) (m : Mode) (v : α) (wireType : WireType) (bs : Bytes) : Exec (Res α) :=
  if wireType ≠ d.wire then
    match skipField m wireType bs with
    | .ok rest => pure (.ok v rest)
    | .error e => pure (.err v e)
  else
    match wireType with
    | .varint => d.merge m v bs
    | .sized => withNestedX m v bs (d.merge m v)

/-- `Deserialize::deserialize_nested`, `steit/src/de/de.rs:31-38`. -/
def deserializeNested (d : DictX α) (m : Mode) (wireType : WireType) (bs : Bytes) : Exec (Except Err (α × Bytes)) := do
  let v ← d.dflt
  match ← d.mergeNested m v wireType bs with
  | .ok v rest => pure (.ok (v, rest))
  | .err _ e => pure (.error e)

end DictX

/-- The default `State::handle_update`, `steit/src/state.rs:32-35`. -/
def handleUpdateDefaultX {α : Type} (runtime : α → Option Rt) (withRuntime : Rt → Exec α) (merge : Mode → α → Bytes → Exec (Res α))
    (m : Mode) (v : α) (bs : Bytes) : Exec (Res α) :=
  match runtime v with
  | none => pure (.err v .panic)
  | some rt => do
    let v ← withRuntime rt
    merge m v bs

/-- The default `State::is_root`, `steit/src/state.rs:24-26`. -/
def isRootDefaultX {α : Type} (runtime : α → Option Rt) (v : α) : Exec (Except Err Bool) :=
  match runtime v with
  | none => pure (.error .panic)
  | some rt => pure (.ok rt.isRoot)

/-- Integers and bools, `steit/src/impls/macros.rs:39-92`, `varint.rs`, `bool.rs`. -/
def primX {α : Type} (get : Mode → Bytes → Except Err (α × Bytes)) (dflt : α) : DictX α :=
  let merge := fun (m : Mode) (v : α) (bs : Bytes) =>
    match get m bs with
    | .ok (v', rest) => (pure (Res.ok v' rest) : Exec (Res α))
    | .error e => pure (Res.err v e)
  { wire := .varint
    runtime := fun _ => none
    dflt := pure dflt
    withRuntime := fun _ => pure dflt
    merge := merge
    isRoot := fun _ => pure (.error .panic)
    handleUpdate := merge
    handle := fun m v path kind _ bs =>
      if path = [] then
        if kind = .update then merge m v bs else pure (.err v .invalidData)
      else pure (.err v .invalidData) }

/-- Types that implement `Deserialize` (`steit/src/de/de.rs:7-39`) but not `State`: the `State` entries are not used, as in `plainDict`. -/
def plainX {α : Type} (dflt : Exec α) (merge : Mode → α → Bytes → Exec (Res α)) : DictX α :=
  { wire := .sized
    runtime := fun _ => none
    dflt := dflt
    withRuntime := fun _ => dflt
    merge := merge
    isRoot := fun _ => pure (.error .panic)
    handleUpdate := fun _ v _ => pure (.err v .panic)
    handle := fun _ v _ _ _ _ => pure (.err v .panic) }

/-- `String`, `steit/src/impls/string.rs:24-29`. -/
def stringX : DictX Str :=
  plainX (pure ⟨[], rfl⟩)
    (fun _ s bs => if h : utf8Valid bs = true then pure (.ok ⟨bs, h⟩ []) else pure (.err s .invalidData))

/-- `Bytes`, `steit/src/types/bytes.rs:60-63`. -/
def bytesX : DictX Bytes := plainX (pure []) (fun _ s bs => pure (.ok (s ++ bs) []))

/-- `Vec<T>`, one round, `steit/src/impls/vec.rs:42-43`. -/
def vecStepX {α : Type} (d : DictX α) (m : Mode) (xs : List α) (bs : Bytes) : Exec (Res (List α)) := do
  match ← d.deserializeNested m d.wire bs with
  | .ok (x, rest) => pure (.ok (xs ++ [x]) rest)
  | .error e => pure (.err xs e)

/-- `Vec<T>`, `steit/src/impls/vec.rs:40-47`. -/
def vecX {α : Type} (d : DictX α) : DictX (List α) :=
  plainX (pure []) (fun m xs bs => untilEofX (vecStepX d m) bs.length xs bs)

/-- The loop of `[T; n]::merge`, `steit/src/impls/array.rs:43-49`, as `arrayLoop`. -/
def arrayLoopX {α : Type} (d : DictX α) (m : Mode) : (done : List α) → (todo : List α) → Bytes →
    Exec (Res { xs : List α // xs.length = done.length + todo.length })
  | done, [], bs => pure (.ok ⟨done, by simp⟩ bs)
  | done, t :: todo, [] => pure (.ok ⟨done ++ t :: todo, by simp⟩ [])
  | done, t :: todo, b :: bs => do
    match ← d.deserializeNested m d.wire (b :: bs) with
    | .error e => pure (.err ⟨done ++ t :: todo, by simp⟩ e)
    | .ok (x, rest) => do
      let r ← arrayLoopX d m (done ++ [x]) todo rest
      pure (r.map (fun xs => ⟨xs.1, by have := xs.2; simp at this ⊢; omega⟩))

/-- `n` default values: `Default for [T; n]` of the standard library, required by `steit/src/impls/array.rs:42` through
`Deserialize: Default` (`steit/src/de/de.rs:7`). -/
def replicateX {α : Type} (x : Exec α) : (n : Nat) → Exec (ArrayV α n)
  | 0 => pure ⟨[], rfl⟩
  | n + 1 => do
    let v ← x
    let vs ← replicateX x n
    pure ⟨v :: vs.1, by rw [List.length_cons, vs.2]⟩

/-- `[T; n]`, `steit/src/impls/array.rs:42-55`. -/
def arrayX {α : Type} (n : Nat) (d : DictX α) : DictX (ArrayV α n) :=
  plainX (replicateX d.dflt n)
    (fun m xs bs => do
      let r ← arrayLoopX d m [] xs.1 bs
      match r.map (fun ys => (⟨ys.1, by have := ys.2; have := xs.2; simp_all⟩ : ArrayV α n)) with
      | .ok ys _ => pure (.ok ys [])
      | .err ys e => pure (.err ys e))

/-- `Option<T>`, one round, `steit/src/impls/option.rs:38-44`. -/
def optionStepX {α : Type} (d : DictX α) (m : Mode) (o : Option α) (bs : Bytes) : Exec (Res (Option α)) := do
  let v ← (match o with
    | some v => pure v
    | none => d.dflt)
  let r ← d.mergeNested m v d.wire bs
  pure (r.map some)

/-- `Option<T>`, `steit/src/impls/option.rs:36-48`. -/
def optionX {α : Type} (d : DictX α) : DictX (Option α) :=
  plainX (pure none) (fun m o bs => untilEofX (optionStepX d m) bs.length o bs)

/-- `Box<T>`, `steit/src/impls/box.rs:13-59`, as `boxDict`. -/
def boxX {α : Type} (d : DictX α) : DictX α :=
  { d with
    isRoot := isRootDefaultX d.runtime
    handleUpdate := handleUpdateDefaultX d.runtime d.withRuntime d.merge }

/-- The components of a tuple: default values, and reading them, `steit/src/impls/tuple.rs:39`. -/
structure TupleX (α : Type) where
  dflt : Exec α
  read : Mode → Bytes → Exec (Except Err (α × Bytes))

/-- No components left, `tuple.rs:39`. -/
def tupleNilX : TupleX Unit := { dflt := pure (), read := fun _ bs => pure (.ok ((), bs)) }

/-- A component and the remaining ones, `tuple.rs:39`. -/
def tupleConsX {α β : Type} (d : DictX α) (t : TupleX β) : TupleX (α × β) :=
  { dflt := do
      let x ← d.dflt
      let y ← t.dflt
      pure (x, y)
    read := fun m bs => do
      match ← d.deserializeNested m d.wire bs with
      | .error e => pure (.error e)
      | .ok (x, rest) => do
        match ← t.read m rest with
        | .error e => pure (.error e)
        | .ok (y, rest) => pure (.ok ((x, y), rest)) }

/-- Tuples, `steit/src/impls/tuple.rs:38-46`. -/
def tupleX {α : Type} (t : TupleX α) : DictX α :=
  plainX t.dflt (fun m v bs => do
    match ← t.read m bs with
    | .error e => pure (.err v e)
    | .ok (v', _) => pure (.ok v' []))

/-- `HashMap<K, V>`, one round, `steit/src/impls/hash_map.rs:43-45`. -/
def hashMapStepX {κ ν : Type} (eq : κ → κ → Bool) (dk : DictX κ) (dv : DictX ν) (m : Mode) (es : List (κ × ν)) (bs : Bytes) :
    Exec (Res (List (κ × ν))) := do
  match ← dk.deserializeNested m dk.wire bs with
  | .error e => pure (.err es e)
  | .ok (k, rest) => do
    match ← dv.deserializeNested m dv.wire rest with
    | .error e => pure (.err es e)
    | .ok (v, rest) => pure (.ok (hashInsert eq k v es) rest)

/-- `HashMap<K, V>`, `steit/src/impls/hash_map.rs:41-49`. -/
def hashMapX {κ ν : Type} (eq : κ → κ → Bool) (dk : DictX κ) (dv : DictX ν) : DictX (List (κ × ν)) :=
  plainX (pure []) (fun m es bs => untilEofX (hashMapStepX eq dk dv m) bs.length es bs)

/-- `List<T>`, one round of `merge`, `steit/src/types/list.rs:182-185`: `self.items.push(item)` on the inner `Vec`, not `List::push`. -/
def listStepX {α : Type} (d : DictX α) (m : Mode) (l : ListV α) (bs : Bytes) : Exec (Res (ListV α)) := do
  let item ← d.withRuntime (l.rt.nested (fieldNo l.items.length))
  match ← d.mergeNested m item d.wire bs with
  | .ok item rest => pure (.ok { l with items := l.items ++ [item] } rest)
  | .err _ e => pure (.err l e)

/-- `List::merge`, `steit/src/types/list.rs:178-189`. -/
def listMergeX {α : Type} (d : DictX α) (m : Mode) (l : ListV α) (bs : Bytes) : Exec (Res (ListV α)) :=
  untilEofX (listStepX d m) bs.length l bs

/-- `List::handle`, `steit/src/types/list.rs:209-258`. -/
def listHandleX {α : Type} (d : DictX α) (m : Mode) (l : ListV α) (path : List U32) (kind : LogKind) (key : Option U32) (bs : Bytes) :
    Exec (Res (ListV α)) :=
  match path with
  | fieldNumber :: path =>
    match l.items[fieldNumber.toNat]? with
    | some item => do
      let r ← d.handle m item path kind key bs
      pure (r.map (fun item => { l with items := l.items.set fieldNumber.toNat item }))
    | none => pure (.err l .invalidData)
  | [] =>
    match kind with
    | .update => listMergeX d m ⟨l.rt, []⟩ bs
    | .listPush => do
      let item ← d.withRuntime (l.rt.nested (fieldNo l.items.length))
      match ← d.merge m item bs with
      | .ok item rest => pure (.ok { l with items := l.items ++ [item] } rest)
      | .err _ e => pure (.err l e)
    | .listPop => if l.items = [] then pure (.err l .invalidData) else pure (.ok { l with items := l.items.dropLast } bs)
    | .mapRemove => pure (.err l .invalidData)

/-- `List<T>`, `steit/src/types/list.rs:159-259`. -/
def listX {α : Type} (d : DictX α) : DictX (ListV α) :=
  { wire := .sized
    runtime := fun l => some l.rt
    dflt := pure ⟨Rt.dflt, []⟩
    withRuntime := fun rt => pure ⟨rt, []⟩
    merge := listMergeX d
    isRoot := isRootDefaultX (fun l => some l.rt)
    handleUpdate := handleUpdateDefaultX (fun l => some l.rt) (fun rt => pure ⟨rt, []⟩) (listMergeX d)
    handle := listHandleX d }

/-- `Map<K, V>`, one round of `merge`, `steit/src/types/map/map.rs:186-197`: `self.entries.insert` on the inner `IndexMap`, not
`Map::insert`. -/
def mapStepX {α : Type} (kt : KeyTy) (d : DictX α) (m : Mode) (v : MapV α) (bs : Bytes) : Exec (Res (MapV α)) :=
  match readMapKey m kt bs with
  | .error e => pure (.err v e)
  | .ok (k, rest) =>
    match entriesGet k v.entries with
    | some x => do
      let r ← d.mergeNested m x d.wire rest
      pure (r.map (fun x => { v with entries := entriesInsert k x v.entries }))
    | none => do
      let x ← d.withRuntime (v.rt.nested k)
      match ← d.mergeNested m x d.wire rest with
      | .ok x rest => pure (.ok { v with entries := entriesInsert k x v.entries } rest)
      | .err _ e => pure (.err v e)

/-- `Map::merge`, `steit/src/types/map/map.rs:184-201`. -/
def mapMergeX {α : Type} (kt : KeyTy) (d : DictX α) (m : Mode) (v : MapV α) (bs : Bytes) : Exec (Res (MapV α)) :=
  untilEofX (mapStepX kt d m) bs.length v bs

/-- `Map::handle`, `steit/src/types/map/map.rs:221-271`. -/
def mapHandleX {α : Type} (kt : KeyTy) (d : DictX α) (m : Mode) (v : MapV α) (path : List U32) (kind : LogKind) (key : Option U32)
    (bs : Bytes) : Exec (Res (MapV α)) :=
  match path with
  | fieldNumber :: path =>
    match entriesGet fieldNumber v.entries with
    | some x => do
      let r ← d.handle m x path kind key bs
      pure (r.map (fun x => { v with entries := entriesInsert fieldNumber x v.entries }))
    | none =>
      if kind = .update ∧ path = [] then do
        let x ← d.withRuntime (v.rt.nested fieldNumber)
        match ← d.merge m x bs with
        | .ok x rest => pure (.ok { v with entries := entriesInsert fieldNumber x v.entries } rest)
        | .err _ e => pure (.err v e)
      else pure (.err v .invalidData)
  | [] =>
    match kind with
    | .update => mapMergeX kt d m ⟨v.rt, []⟩ bs
    | .mapRemove =>
      match key with
      | none => pure (.err v .invalidData)
      | some key =>
        match entriesGet key v.entries with
        | some _ => pure (.ok { v with entries := entriesRemove key v.entries } bs)
        | none => pure (.err v .invalidData)
    | .listPush => pure (.err v .invalidData)
    | .listPop => pure (.err v .invalidData)

/-- `Map<K, V>`, `steit/src/types/map/map.rs:155-272`. -/
def mapX {α : Type} (kt : KeyTy) (d : DictX α) : DictX (MapV α) :=
  { wire := .sized
    runtime := fun v => some v.rt
    dflt := pure ⟨Rt.dflt, []⟩
    withRuntime := fun rt => pure ⟨rt, []⟩
    merge := mapMergeX kt d
    isRoot := isRootDefaultX (fun v => some v.rt)
    handleUpdate := handleUpdateDefaultX (fun v => some v.rt) (fun rt => pure ⟨rt, []⟩) (mapMergeX kt d)
    handle := mapHandleX kt d }

/-- Generated code for fields, as `FieldsD`: field initialisers (`struct.rs:186-216`), arms of `merger` (`struct.rs:356-370`) and of
`replayer` (`struct.rs:405-442`). -/
structure FieldsX (β : Type) where
  init : Option Rt → Exec β
  mergeField : Mode → U32 → WireType → β → Bytes → Option (Exec (Res β))
  handleField : Mode → U32 → β → List U32 → LogKind → Option U32 → Bytes → Option (Exec (Res β))

/-- No fields left, `struct.rs:356-442`. -/
def fieldsNilX : FieldsX Unit :=
  { init := fun _ => pure ()
    mergeField := fun _ _ _ _ _ => none
    handleField := fun _ _ _ _ _ _ _ => none }

/-- A field and the remaining ones: `field.rs:238-245`, `376-380`, `392-401`. The replayer assigns nothing through setters: it calls
`handle` of the field itself. -/
def fieldsConsX {α β : Type} (deriveState : Bool) (tag : U32) (attrs : FieldAttrs) (d : DictX α) (fs : FieldsX β) : FieldsX (α × β) :=
  let isState := deriveState && !attrs.noState
  { init := fun rt => do
      let x ← (match rt, isState with
        | some rt, true => d.withRuntime (rt.nested tag)
        | _, _ => d.dflt)
      let y ← fs.init rt
      pure (x, y)
    mergeField := fun m fieldNumber wireType v bs =>
      if fieldNumber = tag then some (do
        let r ← d.mergeNested m v.1 wireType bs
        pure (r.map (fun x => (x, v.2))))
      else (fs.mergeField m fieldNumber wireType v.2 bs).map (fun x => do
        let r ← x
        pure (r.map (fun y => (v.1, y))))
    handleField := fun m fieldNumber v path kind key bs =>
      if fieldNumber = tag then
        some (if isState then do
          let r ← d.handle m v.1 path kind key bs
          pure (r.map (fun x => (x, v.2)))
        else pure (.ok v bs))
      else (fs.handleField m fieldNumber v.2 path kind key bs).map (fun x => do
        let r ← x
        pure (r.map (fun y => (v.1, y)))) }

namespace FieldsX
variable {β : Type}

/-- One round of `merger`, `struct.rs:362-367`. -/
def mergeStep (fs : FieldsX β) (m : Mode) (v : β) (bs : Bytes) : Exec (Res β) :=
  match readTag m bs with
  | .error e => pure (.err v e)
  | .ok ((fieldNumber, wireType), rest) =>
    match fs.mergeField m fieldNumber wireType v rest with
    | some r => r
    | none =>
      match skipField m wireType rest with
      | .ok rest => pure (.ok v rest)
      | .error e => pure (.err v e)

/-- `merger`, `struct.rs:356-370`. -/
def merge (fs : FieldsX β) (m : Mode) (v : β) (bs : Bytes) : Exec (Res β) :=
  untilEofX (fs.mergeStep m) bs.length v bs

end FieldsX

/-- `replayer` of a struct, `struct.rs:405-442` (with `handle_update` of `state.rs:32-35`). -/
def structHandleX {β : Type} (fs : FieldsX β) (m : Mode) (v : StructV β) (path : List U32) (kind : LogKind) (key : Option U32)
    (bs : Bytes) : Exec (Res (StructV β)) :=
  match path with
  | tag :: path =>
    match fs.handleField m tag v.fields path kind key bs with
    | some x => do
      let r ← x
      pure (r.map (fun fields => { v with fields }))
    | none => pure (.err v .invalidData)
  | [] =>
    match kind with
    | .update => do
      let fields ← fs.init (some v.rt)
      let r ← fs.merge m fields bs
      pure (r.map (fun fields => { v with fields }))
    | _ => pure (.err v .invalidData)

/-- A derived struct, `struct.rs:186-476`. -/
def structX {β : Type} (deriveState : Bool) (fs : FieldsX β) : DictX (StructV β) :=
  let merge := fun m (v : StructV β) bs => (do
    let r ← fs.merge m v.fields bs
    pure (r.map (fun fields => { v with fields })) : Exec (Res (StructV β)))
  if deriveState then
    { wire := .sized
      runtime := fun v => some v.rt
      dflt := do
        let fields ← fs.init (some Rt.dflt)
        pure ⟨Rt.dflt, fields⟩
      withRuntime := fun rt => do
        let fields ← fs.init (some rt)
        pure ⟨rt, fields⟩
      merge := merge
      isRoot := isRootDefaultX (fun v => some v.rt)
      handleUpdate := handleUpdateDefaultX (fun v => some v.rt) (fun rt => do
        let fields ← fs.init (some rt)
        pure ⟨rt, fields⟩) merge
      handle := structHandleX fs }
  else plainX (do
    let fields ← fs.init none
    pure ⟨Rt.dflt, fields⟩) merge

/-- Generated code over the variants of an enum, as `VariantsD`. (`steit-derive/src/derive/enum.rs:288-453`.) -/
structure VariantsX (γ : Type) where
  tagOf : γ → U32
  /-- the constructor of a variant, `struct.rs:186-216`; `none` for unknown tags -/
  ctor : U32 → Option Rt → Option (Exec γ)
  /-- `merger` of the current variant's fields, `enum.rs:313-315` -/
  mergeFields : Mode → γ → Bytes → Exec (Res γ)
  /-- `replayer` of the current variant's fields, `struct.rs:405-442` -/
  handleFields : Mode → γ → List U32 → LogKind → Option U32 → Bytes → Exec (Res γ)

/-- No variants left, `enum.rs:288-450`. -/
def variantsNilX : VariantsX Empty :=
  { tagOf := nofun, ctor := fun _ _ => none, mergeFields := fun _ => nofun, handleFields := fun _ => nofun }

/-- `replayer` of a variant's fields, `struct.rs:410-441` with `is_variant`. -/
def variantHandleX {β : Type} (fs : FieldsX β) (m : Mode) (v : β) (path : List U32) (kind : LogKind) (key : Option U32) (bs : Bytes) :
    Exec (Res β) :=
  match path with
  | tag :: path =>
    match fs.handleField m tag v path kind key bs with
    | some r => r
    | none => pure (.err v .invalidData)
  | [] => pure (.err v .invalidData)

/-- A variant and the remaining ones, `enum.rs:288-450`. -/
def variantsConsX {β γ : Type} (tag : U32) (fs : FieldsX β) (vs : VariantsX γ) : VariantsX (β ⊕ γ) :=
  { tagOf := fun
      | .inl _ => tag
      | .inr v => vs.tagOf v
    ctor := fun tag' rt =>
      if tag' = tag then some (do
        let x ← fs.init rt
        pure (.inl x))
      else (vs.ctor tag' rt).map (fun x => do
        let y ← x
        pure (.inr y))
    mergeFields := fun m v bs =>
      match v with
      | .inl v => do
        let r ← fs.merge m v bs
        pure (r.map .inl)
      | .inr v => do
        let r ← vs.mergeFields m v bs
        pure (r.map .inr)
    handleFields := fun m v path kind key bs =>
      match v with
      | .inl v => do
        let r ← variantHandleX fs m v path kind key bs
        pure (r.map .inl)
      | .inr v => do
        let r ← vs.handleFields m v path kind key bs
        pure (r.map .inr) }

/-- `Deserialize::merge` of an enum, `enum.rs:288-342`: `*self = Self::ctor(runtime)`, not a setter. -/
def enumMergeX {γ : Type} (deriveState : Bool) (vs : VariantsX γ) (m : Mode) (v : EnumV γ) (bs : Bytes) : Exec (Res (EnumV γ)) :=
  match getVarint m 32 bs with
  | .error e => pure (.err v e)
  | .ok (tag, rest) =>
    if tag = vs.tagOf v.val then do
      let r ← vs.mergeFields m v.val rest
      pure (r.map (fun val => { v with val }))
    else if deriveState then
      match v.rt.parent with
      | .error e => match vs.ctor tag none with
        | none => pure (.err v .invalidData)
        | some _ => pure (.err v e)
      | .ok parent =>
        match vs.ctor tag (some (parent.nested tag)) with
        | none => pure (.err v .invalidData)
        | some ctor => do
          let val ← ctor
          let r ← vs.mergeFields m val rest
          pure (r.map (fun val => ⟨parent.nested tag, val⟩))
    else
      match vs.ctor tag none with
      | none => pure (.err v .invalidData)
      | some ctor => do
        let val ← ctor
        let r ← vs.mergeFields m val rest
        pure (r.map (fun val => { v with val }))

/-- `State::handle_update` of an enum, `enum.rs:419-422`. -/
def enumHandleUpdateX {γ : Type} (vs : VariantsX γ) (dfltVal : Option Rt → Exec γ) (m : Mode) (v : EnumV γ) (bs : Bytes) :
    Exec (Res (EnumV γ)) :=
  match v.rt.parent with
  | .error e => pure (.err v e)
  | .ok parent => do
    let val ← dfltVal (some (parent.nested 0#32))
    enumMergeX true vs m ⟨parent.nested 0#32, val⟩ bs

/-- `State::handle` of an enum, `enum.rs:424-450`. -/
def enumHandleX {γ : Type} (vs : VariantsX γ) (dfltVal : Option Rt → Exec γ) (m : Mode) (v : EnumV γ) (path : List U32)
    (kind : LogKind) (key : Option U32) (bs : Bytes) : Exec (Res (EnumV γ)) :=
  match path with
  | tag :: path =>
    if tag = vs.tagOf v.val then do
      let r ← vs.handleFields m v.val path kind key bs
      pure (r.map (fun val => { v with val }))
    else pure (.err v .invalidData)
  | [] => if kind = .update then enumHandleUpdateX vs dfltVal m v bs else pure (.err v .invalidData)

/-- A derived enum, `enum.rs:92-453`. -/
def enumX {γ : Type} (deriveState : Bool) (vs : VariantsX γ) (dfltVal : Option Rt → Exec γ) : DictX (EnumV γ) :=
  if deriveState then
    { wire := .sized
      runtime := fun v => some v.rt
      dflt := do
        let val ← dfltVal (some (Rt.dflt.nested 0#32))
        pure ⟨Rt.dflt.nested 0#32, val⟩
      withRuntime := fun rt => do
        let val ← dfltVal (some (rt.nested 0#32))
        pure ⟨rt.nested 0#32, val⟩
      merge := enumMergeX true vs
      isRoot := fun v => pure (do
        let parent ← v.rt.parent
        return parent.isRoot)
      handleUpdate := enumHandleUpdateX vs dfltVal
      handle := enumHandleX vs dfltVal }
  else plainX (do
    let val ← dfltVal none
    pure ⟨Rt.dflt, val⟩) (enumMergeX false vs)

mutual
/-- The implementations for a type, as `Ty.dict` (files cited at the combinators).
(`steit/src/impls/*.rs`, `steit/src/types/**/*.rs`, `steit-derive/src/derive/struct.rs:186-476`, `steit-derive/src/derive/enum.rs:92-453`.) -/
def Ty.dictX : (t : Ty) → DictX t.El
  | .uint w => primX (fun m => getVarint m w.bits) 0#w.bits
  | .sint w => primX (fun m => getSigned m w.bits) 0#w.bits
  | .bool => primX (fun _ => getBool) false
  | .string => stringX
  | .bytes => bytesX
  | .vec t => vecX t.dictX
  | .array n t => arrayX n t.dictX
  | .tuple ts => tupleX ts.dictX
  | .option t => optionX t.dictX
  | .box t => boxX t.dictX
  | .hashMap k v => hashMapX k.eq k.dictX v.dictX
  | .list t => listX t.dictX
  | .map k t => mapX k t.dictX
  | .struct deriveState _ fs => structX deriveState (fs.dictX deriveState)
  | .enum deriveState _ fs vs =>
    enumX deriveState (variantsConsX 0#32 (fs.dictX deriveState) (vs.dictX deriveState)) (fun rt => do
      let x ← (fs.dictX deriveState).init rt
      pure (.inl x))

/-- The components of a tuple. (`steit/src/impls/tuple.rs:14-49`.) -/
def Tys.dictX : (ts : Tys) → TupleX ts.El
  | .nil => tupleNilX
  | .cons t ts => tupleConsX t.dictX ts.dictX

/-- The fields of a struct or variant. (`steit-derive/src/derive/field.rs:238-245,364-401`.) -/
def Fields.dictX : (fs : Fields) → (deriveState : Bool) → FieldsX fs.El
  | .nil, _ => fieldsNilX
  | .cons tag attrs t fs, deriveState => fieldsConsX deriveState tag attrs t.dictX (fs.dictX deriveState)

/-- The variants of an enum. (`steit-derive/src/derive/enum.rs:288-453`.) -/
def Variants.dictX : (vs : Variants) → (deriveState : Bool) → VariantsX vs.El
  | .nil, _ => variantsNilX
  | .cons tag _ fs vs, deriveState => variantsConsX tag (fs.dictX deriveState) (vs.dictX deriveState)
end

/-- `self.handle(path, kind, key, reader)` for an unpacked entry, `steit/src/state.rs:48-53`. -/
def applyEntryX {α : Type} (d : DictX α) (m : Mode) (v : α) (e : Entry) : Exec (Res α) :=
  match e.unpack with
  | (kind, path, key, bytes) => d.handle m v path kind key (bytes.getD [])

/-- One round of the loop of `State::replay`, `steit/src/state.rs:46-53`. The entry is deserialized like any other value. -/
def replayStepX {α : Type} (d : DictX α) (m : Mode) (v : α) (bs : Bytes) : Exec (Res α) := do
  match ← logEntryTy.dictX.deserializeNested m logEntryTy.dictX.wire bs with
  | .error e => pure (.err v e)
  | .ok (entry, rest) => do
    match ← applyEntryX d m v (Entry.ofEl entry) with
    | .ok v' _ => pure (.ok v' rest)
    | .err v' e => pure (.err v' e)

/-- `State::replay`, `steit/src/state.rs:37-57`. -/
def replayX {α : Type} (d : DictX α) (m : Mode) (v : α) (bs : Bytes) : Exec (Res α) := do
  match ← d.isRoot v with
  | .error e => pure (.err v e)
  | .ok false => pure (.err v .invalidInput)
  | .ok true => untilEofX (replayStepX d m) bs.length v bs

end Steit
