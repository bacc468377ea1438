import Verif.Model.Impls

/-! # The state collections `List` and `Map` (`steit/src/types/list.rs`, `steit/src/types/map`) -/

namespace Steit

/-! ## `List<T>` -/

/-- `List<T>`, `steit/src/types/list.rs:20-25`, without its size cache (see `Verif/Model/Prog.lean`). -/
structure ListV (α : Type) where
  rt : Rt
  items : List α
  deriving DecidableEq

/-- `items.len() as u32` and `index as u32`, used as field numbers of items (`list.rs:61,98,106,203,230`). -/
def fieldNo (i : Nat) : U32 := BitVec.ofNat 32 i

/-- One round of `List::merge`, `steit/src/types/list.rs:182-185`. The running `field_number` equals the number of items
(modulo 2^32; its overflow check after 2^32 items is not modelled). -/
def listStep {α : Type} (d : Dict α) (m : Mode) (l : ListV α) (bs : Bytes) : Res (ListV α) :=
  let item := d.withRuntime (l.rt.nested (fieldNo l.items.length))
  match d.mergeNested m item d.wire bs with
  | .ok item rest => .ok { l with items := l.items ++ [item] } rest
  | .err _ e => .err l e

/-- `List::merge`, `steit/src/types/list.rs:178-189`. -/
def listMerge {α : Type} (d : Dict α) (m : Mode) (l : ListV α) (bs : Bytes) : Res (ListV α) :=
  untilEof (listStep d m) bs.length l bs

/-- The loop of `List::set_runtime`, `steit/src/types/list.rs:202-204`, from item `i`. -/
def setRuntimeItems {α : Type} (d : Dict α) (rt : Rt) : Nat → List α → List α
  | _, [] => []
  | i, x :: xs => d.setRuntime (rt.nested (fieldNo i)) x :: setRuntimeItems d rt (i + 1) xs

/-- `List::handle`, `steit/src/types/list.rs:209-258`. -/
def listHandle {α : Type} (d : Dict α) (m : Mode) (l : ListV α) (path : List U32) (kind : LogKind) (key : Option U32)
    (bs : Bytes) : Res (ListV α) :=
  match path with
  | fieldNumber :: path =>
    match l.items[fieldNumber.toNat]? with
    | some item =>
      (d.handle m item path kind key bs).map (fun item => { l with items := l.items.set fieldNumber.toNat item })
    | none => .err l .invalidData
  | [] =>
    match kind with
    | .update => listMerge d m ⟨l.rt, []⟩ bs
    | .listPush =>
      let item := d.withRuntime (l.rt.nested (fieldNo l.items.length))
      match d.merge m item bs with
      | .ok item rest => .ok { l with items := l.items ++ [item] } rest
      | .err _ e => .err l e
    | .listPop => if l.items = [] then .err l .invalidData else .ok { l with items := l.items.dropLast } bs
    | .mapRemove => .err l .invalidData

/-- `List<T>`, `steit/src/types/list.rs:159-259`. -/
def listDict {α : Type} (d : Dict α) : Dict (ListV α) :=
  let ser : SerD (ListV α) :=
    { hasCache := fun _ => true
      computeSize := fun m l v => (vecSer d).computeSize m l v.items
      serializeCached := fun m l v => (vecSer d).serializeCached m l v.items }
  { ser with
    wire := .sized
    isOmissible := ser.isOmissibleBySize
    dflt := ⟨Rt.dflt, []⟩
    merge := listMerge d
    withRuntime := fun rt => ⟨rt, []⟩
    runtime := fun l => some l.rt
    setRuntime := fun rt l => ⟨rt, setRuntimeItems d rt 0 l.items⟩
    isRoot := isRootDefault (fun l => some l.rt)
    handleUpdate := handleUpdateDefault (fun l => some l.rt) (fun rt => ⟨rt, []⟩) (listMerge d)
    handle := listHandle d }

/-! ## `Map<K, V>` -/

/-- `Map<K, V>`, `steit/src/types/map/map.rs:21-28`, without its size cache; the `IndexMap<u32, V>` is its list of entries
in index order. -/
structure MapV (α : Type) where
  rt : Rt
  entries : List (U32 × α)
  deriving DecidableEq

/-- The key types with a `MapKey` implementation, `steit/src/types/map/key.rs:33-35`. -/
inductive KeyTy
  | u8
  | u16
  | u32
  deriving DecidableEq, Repr

/-- `<$type>::MAX`, used in `steit/src/types/map/key.rs:12`. -/
def KeyTy.max : KeyTy → Nat
  | .u8 => 0xff
  | .u16 => 0xffff
  | .u32 => 0xffffffff

/-- `MapKey::try_from_field_number`, `steit/src/types/map/key.rs:11-24`; the key is represented by its `u32` value. -/
def KeyTy.tryFromFieldNumber (k : KeyTy) (fieldNumber : U32) : Except Err U32 :=
  if fieldNumber.toNat ≤ k.max then .ok fieldNumber else .error .invalidData

/-- `IndexMap::get`. (As used in `steit/src/types/map/map.rs:53-59`.) -/
def entriesGet {α : Type} (k : U32) : List (U32 × α) → Option α
  | [] => none
  | (k', v) :: es => if k' = k then some v else entriesGet k es

/-- `IndexMap::insert` (and assignment through `IndexMap::get_mut`): an existing key keeps its index, a new one comes last.
(As used in `steit/src/types/map/map.rs:61-73,184-201`.) -/
def entriesInsert {α : Type} (k : U32) (v : α) : List (U32 × α) → List (U32 × α)
  | [] => [(k, v)]
  | (k', v') :: es => if k' = k then (k', v) :: es else (k', v') :: entriesInsert k v es

/-- `IndexMap::remove` of indexmap 1.x, which is `swap_remove`: the last entry moves to the freed index.
(As used in `steit/src/types/map/map.rs:75-79`.) -/
def entriesRemove {α : Type} (k : U32) (es : List (U32 × α)) : List (U32 × α) :=
  match es.findIdx? (fun e => e.1 = k) with
  | none => es
  | some i =>
    if i + 1 = es.length then es.dropLast
    else match es.getLast? with
      | none => es
      | some last => (es.set i last).dropLast

/-- The loop of `Map::compute_size`, `steit/src/types/map/map.rs:163-165`. -/
def sizeMapEntries {α : Type} (d : Dict α) (m : Mode) (l : Loc) : Nat → Nat → List (U32 × α) → Prog Nat
  | _, size, [] => pure size
  | i, size, (k, v) :: es => do
    let n ← (d.computeSizeNested m (l ++ [i]) v (some k) false).unwrap
    let size ← Prog.addU32 m size n
    sizeMapEntries d m l (i + 1) size es

/-- The loop of `Map::serialize_cached`, `steit/src/types/map/map.rs:171-173`. -/
def serializeMapEntries {α : Type} (d : Dict α) (m : Mode) (l : Loc) : Nat → List (U32 × α) → Prog Bytes
  | _, [] => pure []
  | i, (k, v) :: es => do
    let a ← d.serializeNested m (l ++ [i]) v (some k) false
    let b ← serializeMapEntries d m l (i + 1) es
    pure (a ++ b)

/-- The key-reading part of a round of `Map::merge`, `steit/src/types/map/map.rs:186-189`; the wire type is ignored. -/
def readMapKey (m : Mode) (kt : KeyTy) (bs : Bytes) : Except Err (U32 × Bytes) := do
  let (value, rest) ← getVarint m 32 bs
  let (fieldNumber, _) ← parseTag value
  validateFieldNumber fieldNumber
  let _ ← kt.tryFromFieldNumber fieldNumber
  .ok (fieldNumber, rest)

/-- One round of `Map::merge`, `steit/src/types/map/map.rs:186-197`. -/
def mapStep {α : Type} (kt : KeyTy) (d : Dict α) (m : Mode) (v : MapV α) (bs : Bytes) : Res (MapV α) :=
  match readMapKey m kt bs with
  | .error e => .err v e
  | .ok (k, rest) =>
    match entriesGet k v.entries with
    | some x =>
      (d.mergeNested m x d.wire rest).map (fun x => { v with entries := entriesInsert k x v.entries })
    | none =>
      match d.mergeNested m (d.withRuntime (v.rt.nested k)) d.wire rest with
      | .ok x rest => .ok { v with entries := entriesInsert k x v.entries } rest
      | .err _ e => .err v e

/-- `Map::merge`, `steit/src/types/map/map.rs:184-201`. -/
def mapMerge {α : Type} (kt : KeyTy) (d : Dict α) (m : Mode) (v : MapV α) (bs : Bytes) : Res (MapV α) :=
  untilEof (mapStep kt d m) bs.length v bs

/-- `Map::handle`, `steit/src/types/map/map.rs:221-271`. -/
def mapHandle {α : Type} (kt : KeyTy) (d : Dict α) (m : Mode) (v : MapV α) (path : List U32) (kind : LogKind)
    (key : Option U32) (bs : Bytes) : Res (MapV α) :=
  match path with
  | fieldNumber :: path =>
    match entriesGet fieldNumber v.entries with
    | some x =>
      (d.handle m x path kind key bs).map (fun x => { v with entries := entriesInsert fieldNumber x v.entries })
    | none =>
      if kind = .update ∧ path = [] then
        match d.merge m (d.withRuntime (v.rt.nested fieldNumber)) bs with
        | .ok x rest => .ok { v with entries := entriesInsert fieldNumber x v.entries } rest
        | .err _ e => .err v e
      else .err v .invalidData
  | [] =>
    match kind with
    | .update => mapMerge kt d m ⟨v.rt, []⟩ bs
    | .mapRemove =>
      match key with
      | none => .err v .invalidData
      | some key =>
        match entriesGet key v.entries with
        | some _ => .ok { v with entries := entriesRemove key v.entries } bs
        | none => .err v .invalidData
    | .listPush => .err v .invalidData
    | .listPop => .err v .invalidData

/-- `Map<K, V>`, `steit/src/types/map/map.rs:155-272`; `set_runtime` is lines 213-219. -/
def mapDict {α : Type} (kt : KeyTy) (d : Dict α) : Dict (MapV α) :=
  let ser : SerD (MapV α) :=
    { hasCache := fun _ => true
      computeSize := fun m l v => sizeMapEntries d m l 0 0 v.entries
      serializeCached := fun m l v => serializeMapEntries d m l 0 v.entries }
  { ser with
    wire := .sized
    isOmissible := ser.isOmissibleBySize
    dflt := ⟨Rt.dflt, []⟩
    merge := mapMerge kt d
    withRuntime := fun rt => ⟨rt, []⟩
    runtime := fun v => some v.rt
    setRuntime := fun rt v => ⟨rt, v.entries.map (fun e => (e.1, d.setRuntime (rt.nested e.1) e.2))⟩
    isRoot := isRootDefault (fun v => some v.rt)
    handleUpdate := handleUpdateDefault (fun v => some v.rt) (fun rt => ⟨rt, []⟩) (mapMerge kt d)
    handle := mapHandle kt d }

end Steit
