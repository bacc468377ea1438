import Verif.Model.World

/-!
# The mutating API of states

List and map methods, generated field setters, and the objects reachable through `&mut` access (list items, map values,
fields). Direct assignment to a public field, which bypasses the library, is not part of it.
-/

namespace Steit

/-! ## Lists -/

/-- `List::push_with`, `steit/src/types/list.rs:60-71`; `getItem` is the closure. Returns the index. -/
def listPushWith {α : Type} (d : Dict α) (m : Mode) (l : ListV α) (getItem : Rt → Exec α) : Exec (Nat × ListV α) := do
  let fieldNumber := fieldNo l.items.length
  l.rt.pauseLogger
  let item ← getItem (l.rt.nested fieldNumber)
  l.rt.unpauseLogger
  l.rt.logListPush d m item
  pure (fieldNumber.toNat, { l with items := l.items ++ [item] })

/-- `List::push`, `steit/src/types/list.rs:53-58`. -/
def listPush {α : Type} (d : Dict α) (m : Mode) (l : ListV α) (item : α) : Exec (Nat × ListV α) :=
  listPushWith d m l (fun runtime => pure (d.setRuntime runtime item))

/-- `List::pop`, `steit/src/types/list.rs:73-80`. -/
def listPop {α : Type} (l : ListV α) : Exec (Option α × ListV α) :=
  if l.items ≠ [] then do
    l.rt.logListPop
    pure (l.items.getLast?, { l with items := l.items.dropLast })
  else pure (none, l)

/-- `Vec::swap_remove` (standard library), `index` in range: the last item replaces the removed one.
(As used in `steit/src/types/list.rs:82-111`.) -/
def vecSwapRemove {α : Type} (items : List α) (index : Nat) (last : α) : List α := (items.set index last).dropLast

/-- `List::swap_remove`, `steit/src/types/list.rs:82-111`. -/
def listSwapRemove {α : Type} (d : Dict α) (m : Mode) (l : ListV α) (index : Nat) : Exec (Option α × ListV α) :=
  match l.items[index]?, l.items.getLast? with
  | some removed, some last =>
    if index + 1 = l.items.length then listPop l
    else do
      let bytes ← toBytesNow d m last
      l.rt.logMulti [.listPop l.rt.path, .update (l.rt.path ++ [fieldNo index]) bytes]
      if d.wire = .sized then
        -- `removed.runtime()` panics where there is none
        let runtime ← Exec.ofExcept (match d.runtime removed with
          | some rt => rt.sibling (fieldNo index)
          | none => .error .panic)
        pure (some removed, { l with items := vecSwapRemove l.items index (d.setRuntime runtime last) })
      else pure (some removed, { l with items := vecSwapRemove l.items index last })
  | _, _ => pure (none, l)

/-- `List::from_iter`, `steit/src/types/list.rs:43-47,133-140`: collect, then set the runtime of everything. -/
def listFromIter {α : Type} (d : Dict (ListV α)) (runtime : Rt) (items : List α) : ListV α :=
  d.setRuntime runtime ⟨Rt.dflt, items⟩

/-! ## Maps -/

/-- `Map::get`, `steit/src/types/map/map.rs:53-55`. -/
def mapGet {α : Type} (v : MapV α) (key : U32) : Option α := entriesGet key v.entries

/-- `Map::contains`, `steit/src/types/map/map.rs:46-51`. -/
def mapContains {α : Type} (v : MapV α) (key : U32) : Bool := (entriesGet key v.entries).isSome

/-- `Map::len`, `steit/src/types/map/map.rs:89-91`. -/
def mapLen {α : Type} (v : MapV α) : Nat := v.entries.length

/-- `Index` for `Map`, `steit/src/types/map/map.rs:94-100`: panics on an absent key. -/
def mapIndex {α : Type} (v : MapV α) (key : U32) : Except Err α :=
  match mapGet v key with
  | some x => .ok x
  | none => .error .panic

/-- `Map::from_iter`, `steit/src/types/map/map.rs:40-44,123-137`: collecting into an `IndexMap` inserts one after the other, so
a later pair replaces the value of an earlier one with the same key, in its place. -/
def mapFromIter {α : Type} (d : Dict (MapV α)) (runtime : Rt) (pairs : List (U32 × α)) : MapV α :=
  d.setRuntime runtime ⟨Rt.dflt, pairs.foldl (fun es e => entriesInsert e.1 e.2 es) []⟩

/-- `Map::insert`, `steit/src/types/map/map.rs:61-65`; `key` is `key.as_field_number()`. Returns the old value. -/
def mapInsert {α : Type} (d : Dict α) (m : Mode) (v : MapV α) (key : U32) (x : α) : Exec (Option α × MapV α) := do
  v.rt.logUpdateChild d m key x
  pure (entriesGet key v.entries, { v with entries := entriesInsert key x v.entries })

/-- `Map::insert_with`, `steit/src/types/map/map.rs:67-73`. -/
def mapInsertWith {α : Type} (d : Dict α) (m : Mode) (v : MapV α) (key : U32) (getValue : Rt → Exec α) :
    Exec (Option α × MapV α) := do
  v.rt.pauseLogger
  let x ← getValue (v.rt.nested key)
  v.rt.unpauseLogger
  mapInsert d m v key x

/-- `Map::remove`, `steit/src/types/map/map.rs:75-79`: logs whether or not the key is there. -/
def mapRemove {α : Type} (v : MapV α) (key : U32) : Exec (Option α × MapV α) := do
  v.rt.logMapRemove key
  pure (entriesGet key v.entries, { v with entries := entriesRemove key v.entries })

/-! ## Operations on a whole state

An operation names the nested object it is called on and the call. -/

/-- Calls on a list: on an item reached by `get_mut`, `IndexMut` or `iter_mut`, or on the list itself.
(`steit/src/types/list.rs:53-115`.) -/
inductive ListOp (α ω : Type)
  | item (index : Nat) (op : ω)
  | push (x : α)
  | pushWith (getItem : Rt → Exec α)
  | pop
  | swapRemove (index : Nat)

/-- Calls on a map: on a value reached by `get_mut`, `IndexMut` or `iter_mut`, or on the map itself.
(`steit/src/types/map/map.rs:57-87`.) -/
inductive MapOp (α ω : Type)
  | value (key : U32) (op : ω)
  | insert (key : U32) (x : α)
  | insertWith (key : U32) (getValue : Rt → Exec α)
  | remove (key : U32)

/-- Calls concerning a field: on the object in it, or its setters. (`steit-derive/src/derive/field.rs:247-338`.) -/
inductive FieldOp (α ω : Type)
  | inner (op : ω)
  | set (x : α)
  | setWith (getValue : Rt → Exec α)

/-- Run a call on a list. An absent item means that `get_mut` returned `None` and nothing was called. (`steit/src/types/list.rs:53-115`.) -/
def runList {α ω : Type} (d : Dict α) (run : Mode → ω → α → Exec α) (m : Mode) (op : ListOp α ω) (l : ListV α) :
    Exec (ListV α) :=
  match op with
  | .item i op =>
    match l.items[i]? with
    | some x => do
      let x ← run m op x
      pure { l with items := l.items.set i x }
    | none => pure l
  | .push x => Prod.snd <$> listPush d m l x
  | .pushWith f => Prod.snd <$> listPushWith d m l f
  | .pop => Prod.snd <$> listPop l
  | .swapRemove i => Prod.snd <$> listSwapRemove d m l i

/-- Run a call on a map. (`steit/src/types/map/map.rs:57-87`.) -/
def runMap {α ω : Type} (d : Dict α) (run : Mode → ω → α → Exec α) (m : Mode) (op : MapOp α ω) (v : MapV α) :
    Exec (MapV α) :=
  match op with
  | .value k op =>
    match entriesGet k v.entries with
    | some x => do
      let x ← run m op x
      pure { v with entries := entriesInsert k x v.entries }
    | none => pure v
  | .insert k x => Prod.snd <$> mapInsert d m v k x
  | .insertWith k f => Prod.snd <$> mapInsertWith d m v k f
  | .remove k => Prod.snd <$> mapRemove v k

/-- The part of the setters `set_f` and `set_f_with` after the variant reset, `steit-derive/src/derive/field.rs:292-331`.
`runtime` is `self.runtime()`. For a `no_state` field only `set_f` exists (lines 318-331); it assigns without logging. -/
def runField {α ω : Type} (isState : Bool) (tag : U32) (d : Dict α) (run : Mode → ω → α → Exec α) (m : Mode) (runtime : Rt)
    (op : FieldOp α ω) (v : α) : Exec α :=
  match op with
  | .inner op => run m op v
  | .set x =>
    if isState then do
      let x := d.setRuntime (runtime.nested tag) x
      runtime.logUpdateChild d m tag x
      pure x
    else pure x
  | .setWith f =>
    if isState then do
      runtime.pauseLogger
      let x ← f (runtime.nested tag)
      runtime.unpauseLogger
      runtime.logUpdateChild d m tag x
      pure x
    else pure v

/-- Is this a setter call (which switches an enum to the setter's variant)? (`steit-derive/src/derive/field.rs:247-338`.) -/
def FieldOp.isSet {α ω : Type} : FieldOp α ω → Bool
  | .inner _ => false
  | .set _ => true
  | .setWith _ => true

/-- Generated setters of an enum, `steit-derive/src/derive/field.rs:247-338`: a setter of a variant (`tag`) first makes that
variant current (`reset_variant`, lines 262-283), logging the whole new value. `runFields` is the rest of the setter, or the
call on the object in a field (reached by matching on the current variant). -/
def runEnum {γ : Type} (d : Dict (EnumV γ)) (vs : VariantsD γ) (m : Mode) (tag : U32) (isSet : Bool)
    (runFields : Rt → γ → Exec γ) (v : EnumV γ) : Exec (EnumV γ) := do
  let v ←
    (if vs.tagOf v.val ≠ tag ∧ isSet = true then do
      let runtime ← Exec.ofExcept v.rt.parent
      match vs.ctor tag (some (runtime.nested tag)) with
      | some val => do
        let value : EnumV γ := ⟨runtime.nested tag, val⟩
        runtime.logUpdate d m value
        pure value
      | none => pure v
    else pure v)
  let val ← runFields v.rt v.val
  pure { v with val }

mutual
/-- The calls available on a state of the given type (and the objects in it). Types that are no states have none: integers and
bools are changed through their containers.
(`steit/src/types/list.rs:53-111`, `steit/src/types/map/map.rs:57-87`, `steit-derive/src/derive/field.rs:247-338`, `steit/src/impls/box.rs:37-59`.) -/
@[reducible] def Ty.Op : Ty → Type
  | .box t => t.Op
  | .list t => ListOp t.El t.Op
  | .map _ t => MapOp t.El t.Op
  | .struct true _ fs => fs.Op
  | .enum true _ fs vs => fs.Op ⊕ vs.Op
  | _ => Empty

/-- One of the fields. (`steit-derive/src/derive/field.rs:247-338`.) -/
@[reducible] def Fields.Op : Fields → Type
  | .nil => Empty
  | .cons _ _ t fs => FieldOp t.El t.Op ⊕ fs.Op

/-- A field of one of the variants. (`steit-derive/src/derive/field.rs:247-338`, `steit-derive/src/derive/enum.rs:122-127`.) -/
@[reducible] def Variants.Op : Variants → Type
  | .nil => Empty
  | .cons _ _ fs vs => fs.Op ⊕ vs.Op
end

/-- Is it a setter call? (`steit-derive/src/derive/field.rs:247-338`.) -/
def Fields.isSet : (fs : Fields) → fs.Op → Bool
  | .nil, op => nomatch op
  | .cons _ _ _ _, .inl op => op.isSet
  | .cons _ _ _ fs, .inr op => fs.isSet op

/-- Is it a setter call? (`steit-derive/src/derive/field.rs:247-338`, `steit-derive/src/derive/enum.rs:122-127`.) -/
def Variants.isSet : (vs : Variants) → vs.Op → Bool
  | .nil, op => nomatch op
  | .cons _ _ fs _, .inl op => fs.isSet op
  | .cons _ _ _ vs, .inr op => vs.isSet op

/-- The tag of the variant a call belongs to. (`steit-derive/src/derive/field.rs:247-338`, `steit-derive/src/derive/enum.rs:122-127`.) -/
def Variants.opTag : (vs : Variants) → vs.Op → U32
  | .nil, op => nomatch op
  | .cons tag _ _ _, .inl _ => tag
  | .cons _ _ _ vs, .inr op => vs.opTag op

mutual
/-- Run a call.
(`steit/src/types/list.rs:53-111`, `steit/src/types/map/map.rs:57-87`, `steit-derive/src/derive/field.rs:247-338`, `steit/src/impls/box.rs:37-59`.) -/
def Ty.run : (t : Ty) → Mode → t.Op → t.El → Exec t.El
  | .box t, m, op, v => t.run m op v
  | .list t, m, op, v => runList t.dict t.run m op v
  | .map _ t, m, op, v => runMap t.dict t.run m op v
  | .struct true _ fs, m, op, v => do
    let fields ← fs.run m v.rt op v.fields
    pure { v with fields }
  | .enum true cached fs vs, m, op, v =>
    runEnum (Ty.enum true cached fs vs).dict (variantsCons 0#32 cached (fs.dict true) (vs.dict true)) m
      (match op with
        | .inl _ => 0#32
        | .inr op => vs.opTag op)
      (match op with
        | .inl op => fs.isSet op
        | .inr op => vs.isSet op)
      (fun rt val =>
        match op, val with
        | .inl op, .inl x => Sum.inl <$> fs.run m rt op x
        | .inr op, .inr x => Sum.inr <$> vs.run m rt op x
        | _, val => pure val)
      v
  | .uint _, _, op, _ => nomatch op
  | .sint _, _, op, _ => nomatch op
  | .bool, _, op, _ => nomatch op
  | .string, _, op, _ => nomatch op
  | .bytes, _, op, _ => nomatch op
  | .vec _, _, op, _ => nomatch op
  | .array _ _, _, op, _ => nomatch op
  | .tuple _, _, op, _ => nomatch op
  | .option _, _, op, _ => nomatch op
  | .hashMap _ _, _, op, _ => nomatch op
  | .struct false _ _, _, op, _ => nomatch op
  | .enum false _ _ _, _, op, _ => nomatch op

/-- Run a call concerning a field of a message deriving `State`, whose runtime is given. (`steit-derive/src/derive/field.rs:247-338`.) -/
def Fields.run : (fs : Fields) → Mode → Rt → fs.Op → fs.El → Exec fs.El
  | .nil, _, _, op, _ => nomatch op
  | .cons tag attrs t _, m, rt, .inl op, v => do
    let x ← runField (!attrs.noState) tag t.dict t.run m rt op v.1
    pure (x, v.2)
  | .cons _ _ _ fs, m, rt, .inr op, v => do
    let y ← fs.run m rt op v.2
    pure (v.1, y)

/-- Run a call concerning the fields of a variant, if it is the current one.
(`steit-derive/src/derive/field.rs:247-338`, `steit-derive/src/derive/enum.rs:122-127`.) -/
def Variants.run : (vs : Variants) → Mode → Rt → vs.Op → vs.El → Exec vs.El
  | .nil, _, _, op, _ => nomatch op
  | .cons _ _ fs _, m, rt, .inl op, .inl x => Sum.inl <$> fs.run m rt op x
  | .cons _ _ _ vs, m, rt, .inr op, .inr x => Sum.inr <$> vs.run m rt op x
  | .cons _ _ _ _, _, _, _, v => pure v
end

end Steit
