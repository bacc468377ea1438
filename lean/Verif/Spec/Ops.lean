import Verif.Model.Ops
import Verif.Spec.Replay
import Verif.Spec.Encoding

/-!
# Specification of the mutating API: which calls are admissible, and what following a source means

Two sets of side conditions on a call, both about its arguments and the place it is made at:

* `OpAddr`: enough for every object to keep knowing its address (C25). It excludes inserting into a map a value that carries
  another address (C36) and removing a list item other than the last from a list of enums (C37).
* `OpSync`: enough (together with `OpAddr`) for replicas to follow (C24). It further excludes changing `no_state` fields (C38),
  removing absent map keys (C35), and values the wire format cannot carry.
-/

namespace Steit.Spec

/-- A closure given to a `*_with` method: what it builds sits where it is told to. -/
def ClosureAddr (t : Ty) (f : Rt → Exec t.El) : Prop := ∀ rt w x w', f rt w = (.ok x, w') → At t rt x

/-- A closure given to a `*_with` method: while the logger is paused it returns a value the wire can carry, and leaves the
logger as it was. -/
def ClosureSync (t : Ty) (f : Rt → Exec t.El) : Prop :=
  ∀ rt w, 0 < (w.loggers rt.logger).paused →
    ∃ x w', f rt w = (.ok x, w') ∧ Carried t x ∧ (encode t x).length < 2 ^ 32 ∧ w'.loggers rt.logger = w.loggers rt.logger

mutual
/-- See the head of the file. -/
def OpAddr : (t : Ty) → t.Op → t.El → Prop
  | .box t, op, v => OpAddr t op v
  | .list t, op, v =>
    match op with
    | .item i op => ∀ x, v.items[i]? = some x → OpAddr t op x
    | .push x => ∃ rt, At t rt x
    | .pushWith f => ClosureAddr t f
    | .pop => True
    | .swapRemove i => shape t = .enum → v.items.length ≤ i + 1
  | .map _ t, op, v =>
    match op with
    | .value k op => ∀ e ∈ v.entries, e.1 = k → OpAddr t op e.2
    | .insert k x => At t (v.rt.nested k) x
    | .insertWith _ f => ClosureAddr t f
    | .remove _ => True
  | .struct true _ fs, op, v => OpAddrFields fs op v.fields
  | .enum true _ fs vs, op, v =>
    match op, v.val with
    | .inl op, .inl x => OpAddrFields fs op x
    | .inl op, .inr _ => fs.isSet op = true → ∀ x, OpAddrFields fs op x
    | .inr op, .inl _ => vs.isSet op = true → ∀ x, OpAddrVariant vs op x
    | .inr op, .inr x => OpAddrVariant vs op x
  | _, _, _ => True

/-- Calls concerning a field. -/
def OpAddrFields : (fs : Fields) → fs.Op → fs.El → Prop
  | .nil, _, _ => True
  | .cons _ _ t _, .inl op, v =>
    match op with
    | .inner op => OpAddr t op v.1
    | .set x => ∃ rt, At t rt x
    | .setWith f => ClosureAddr t f
  | .cons _ _ _ fs, .inr op, v => OpAddrFields fs op v.2

/-- Calls concerning a variant: with the variant current, or a setter that makes it so. -/
def OpAddrVariant : (vs : Variants) → vs.Op → vs.El → Prop
  | .nil, _, _ => True
  | .cons _ _ fs vs, op, v =>
    match op, v with
    | .inl op, .inl x => OpAddrFields fs op x
    | .inl op, .inr _ => fs.isSet op = true → ∀ x, OpAddrFields fs op x
    | .inr op, .inl _ => vs.isSet op = true → ∀ x, OpAddrVariant vs op x
    | .inr op, .inr x => OpAddrVariant vs op x
end

/-- A value the wire can carry in one message. -/
def Sendable (t : Ty) (x : t.El) : Prop := Carried t x ∧ (encode t x).length < 2 ^ 32

/-- If a setter has to switch to its variant: the variant with default fields must fit in one message. -/
def SwitchSync (vs : Variants) (op : vs.Op) (v : vs.El) : Prop :=
  vs.isSet op = true → (vs.dict true).tagOf v ≠ vs.opTag op →
    ∀ rt x, (vs.dict true).ctor (vs.opTag op) (some rt) = some x → (encodeVariant vs x).length < 2 ^ 32

mutual
/-- See the head of the file. -/
def OpSync : (t : Ty) → t.Op → t.El → Prop
  | .box t, op, v => OpSync t op v
  | .list t, op, v =>
    match op with
    | .item i op => ∀ x, v.items[i]? = some x → i < 2 ^ 32 ∧ OpSync t op x
    | .push x => Sendable t x
    | .pushWith f => ClosureSync t f
    | .pop => True
    | .swapRemove i => i + 1 < v.items.length → i < 2 ^ 32 ∧ ∀ x, v.items.getLast? = some x → (encode t x).length < 2 ^ 32
  | .map kt t, op, v =>
    match op with
    | .value k op => ∀ e ∈ v.entries, e.1 = k → OpSync t op e.2
    | .insert k x => k.toNat ≤ kt.max ∧ k.toNat < 2 ^ 29 ∧ Sendable t x
    | .insertWith k f => k.toNat ≤ kt.max ∧ k.toNat < 2 ^ 29 ∧ ClosureSync t f
    | .remove k => k ∈ v.entries.map (·.1)
  | .struct true _ fs, op, v => OpSyncFields fs op v.fields
  | .enum true cached fs vs, op, v =>
    SwitchSync (.cons 0#32 cached fs vs) op v.val ∧
    match op, v.val with
    | .inl op, .inl x => OpSyncFields fs op x
    | .inl op, .inr _ => fs.isSet op = true → ∀ x, OpSyncFields fs op x
    | .inr op, .inl _ => vs.isSet op = true → ∀ x, OpSyncVariant vs op x
    | .inr op, .inr x => OpSyncVariant vs op x
  | _, _, _ => True

/-- Calls concerning a field: not a `no_state` one. -/
def OpSyncFields : (fs : Fields) → fs.Op → fs.El → Prop
  | .nil, _, _ => True
  | .cons _ attrs t _, .inl op, v =>
    attrs.noState = false ∧
    match op with
    | .inner op => OpSync t op v.1
    | .set x => Sendable t x
    | .setWith f => ClosureSync t f
  | .cons _ _ _ fs, .inr op, v => OpSyncFields fs op v.2

/-- Calls concerning a variant. -/
def OpSyncVariant : (vs : Variants) → vs.Op → vs.El → Prop
  | .nil, _, _ => True
  | .cons _ _ fs vs, op, v =>
    match op, v with
    | .inl op, .inl x => OpSyncFields fs op x
    | .inl op, .inr _ => fs.isSet op = true → ∀ x, OpSyncFields fs op x
    | .inr op, .inl _ => vs.isSet op = true → ∀ x, OpSyncVariant vs op x
    | .inr op, .inr x => OpSyncVariant vs op x
end

/-! ## Logging relative to a place -/

/-- An entry as seen from further up. -/
def under (p : List U32) : Entry → Entry
  | .update path value => .update (p ++ path) value
  | .listPush path item => .listPush (p ++ path) item
  | .listPop path => .listPop (p ++ path)
  | .mapRemove path key => .mapRemove (p ++ path) key

/-- The logger after entries were logged to it: unchanged if it is paused. -/
def appended (l : LoggerSt) (es : List Entry) : LoggerSt :=
  if l.paused = 0 then { l with entries := l.entries ++ es } else l

/-- Between `w` and `w'` exactly the given entries, relative to `rt`, were logged to the logger of `rt`. -/
def Logged (rt : Rt) (w w' : World) (es : List Entry) : Prop :=
  w'.loggers rt.logger = appended (w.loggers rt.logger) (es.map (under rt.path))

end Steit.Spec
