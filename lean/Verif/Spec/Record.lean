import Verif.Spec.Setter
import Verif.Spec.Log

/-!
# Specification: what a call puts in the log

`Records t op v es v'`: the call `op`, which takes the object from `v` to `v'`, logs the entries `es` (paths relative to the object).
-/

namespace Steit.Spec

/-- Does the call make another variant current? Setters of fields of a variant do. -/
def switches (vs : Variants) (op : vs.Op) (v : vs.El) : Bool := vs.isSet op && !isCurrent vs op v

mutual
/-- See the head of the file. -/
def Records : (t : Ty) → t.Op → t.El → List Entry → t.El → Prop
  | .box t, op, v, es, v' => Records t op v es v'
  | .list t, op, v, es, v' =>
    match op with
    | .item i op =>
      -- an absent item: there is nothing to call
      (v.items[i]? = none ∧ es = []) ∨
      ∃ x x' es', v.items[i]? = some x ∧ v'.items[i]? = some x' ∧ Records t op x es' x' ∧ es = es'.map (under [fieldNo i])
    | .push x => es = [.listPush [] (encode t x)]
    | .pushWith _ => ∃ x, v'.items.getLast? = some x ∧ es = [.listPush [] (encode t x)]
    | .pop => es = if v.items.isEmpty then [] else [.listPop []]
    | .swapRemove i =>
      if i + 1 < v.items.length then
        ∃ x, v.items.getLast? = some x ∧ es = [.listPop [], .update [fieldNo i] (encode t x)]
      else es = if i + 1 = v.items.length then [.listPop []] else []
  | .map _ t, op, v, es, v' =>
    match op with
    | .value k op =>
      (k ∉ v.entries.map (·.1) ∧ es = []) ∨
      ∃ x x' es', (k, x) ∈ v.entries ∧ (k, x') ∈ v'.entries ∧ Records t op x es' x' ∧ es = es'.map (under [k])
    | .insert k x => es = [.update [k] (encode t x)]
    | .insertWith k _ => ∃ x, (k, x) ∈ v'.entries ∧ es = [.update [k] (encode t x)]
    | .remove k => es = [.mapRemove [] k]
  | .struct true _ fs, op, v, es, v' => RecordsFields fs op v.fields es v'.fields
  | .enum true cached fs vs, op, v, es, v' =>
    -- a setter of another variant first logs that variant with default fields
    ∃ es', (es = if switches (.cons 0#32 cached fs vs) op v.val then
        .update [] (encodeVariant (.cons 0#32 cached fs vs) (initialVariant (.cons 0#32 cached fs vs) op)) :: es' else es') ∧
    match op, (if switches (.cons 0#32 cached fs vs) op v.val then initialVariant (.cons 0#32 cached fs vs) op else v.val),
        v'.val with
    | .inl op, .inl x, .inl x' => ∃ es'', RecordsFields fs op x es'' x' ∧ es' = es''.map (under [0#32])
    | .inr op, .inr x, .inr x' => RecordsVariant vs op x es' x'
    | _, _, _ => es' = []
  | _, _, _, _, _ => False

/-- Calls concerning a field. -/
def RecordsFields : (fs : Fields) → fs.Op → fs.El → List Entry → fs.El → Prop
  | .nil, _, _, _, _ => False
  | .cons tag _ t _, .inl op, v, es, v' =>
    match op with
    | .inner op => ∃ es', Records t op v.1 es' v'.1 ∧ es = es'.map (under [tag])
    | .set x => es = [.update [tag] (encode t x)]
    | .setWith _ => es = [.update [tag] (encode t v'.1)]
  | .cons _ _ _ fs, .inr op, v, es, v' => RecordsFields fs op v.2 es v'.2

/-- Calls concerning a variant; nothing is called if it is not the current one. -/
def RecordsVariant : (vs : Variants) → vs.Op → vs.El → List Entry → vs.El → Prop
  | .nil, _, _, _, _ => False
  | .cons tag _ fs vs, op, v, es, v' =>
    match op, v, v' with
    | .inl op, .inl x, .inl x' => ∃ es', RecordsFields fs op x es' x' ∧ es = es'.map (under [tag])
    | .inr op, .inr x, .inr x' => RecordsVariant vs op x es x'
    | _, _, _ => es = []
end

/-- Several calls: what each logs, one after the other. -/
def RecordsCalls (t : Ty) : List t.Op → t.El → List Entry → t.El → Prop
  | [], v, es, v' => es = [] ∧ v' = v
  | op :: ops, v, es, v' => ∃ u es1 es2, Records t op v es1 u ∧ RecordsCalls t ops u es2 v' ∧ es = es1 ++ es2

/-! ## Bounds -/

mutual
/-- The longest path from an object of the type to one inside. -/
def levels : Ty → Nat
  | .box t => levels t
  | .list t => levels t + 1
  | .map _ t => levels t + 1
  | .struct _ _ fs => levelsFields fs
  | .enum _ _ fs vs => max (levelsFields fs + 1) (levelsVariants vs)
  | _ => 0

/-- Fields. -/
def levelsFields : Fields → Nat
  | .nil => 0
  | .cons _ _ t fs => max (levels t + 1) (levelsFields fs)

/-- Variants. -/
def levelsVariants : Variants → Nat
  | .nil => 0
  | .cons _ _ fs vs => max (levelsFields fs + 1) (levelsVariants vs)
end

/-- The bytes of the payloads of some entries. -/
def payloads (es : List Entry) : Nat := (es.map (fun e => (payload e).length)).sum

end Steit.Spec
