import Verif.Model.WireFmt
import Verif.Model.Runtime
import Verif.Model.Prog

/-!
# The traits `HasWireType`, `Serialize`, `Deserialize` and `State` as a dictionary of methods

`steit/src/wire_fmt.rs:39-49`, `steit/src/ser.rs`, `steit/src/de/de.rs`, `steit/src/state.rs`.

Each Rust `impl` becomes a value of `Dict`; each provided trait method becomes a function on `Dict`.
A position `l : Loc` is passed to the methods that may touch size caches: it says where in the value being serialized
the receiver sits, and so which cache cell is its own.
-/

namespace Steit

/-- `LogEntryKind`, generated from `LogEntry` in `steit/src/log/entry.rs:20-48` (`EnumKind`). -/
inductive LogKind
  | update
  | listPush
  | listPop
  | mapRemove
  deriving DecidableEq, Repr

/-- The required methods of `Serialize`, `steit/src/ser.rs:8-12`. `hasCache v` says whether `v.size_cache()` is `Some`;
the cell itself is the one at the position passed to the other methods. -/
structure SerD (α : Type) where
  hasCache : α → Bool
  computeSize : Mode → Loc → α → Prog Nat
  serializeCached : Mode → Loc → α → Prog Bytes

namespace SerD
variable {α : Type}

/-- `Serialize::cache_size`, `steit/src/ser.rs:14-22`. -/
def cacheSize (s : SerD α) (m : Mode) (l : Loc) (v : α) : Prog Nat := do
  let size ← s.computeSize m l v
  if s.hasCache v then
    Prog.set l size
    return size
  else
    return size

/-- `Serialize::cached_size`, `steit/src/ser.rs:24-29`. -/
def cachedSize (s : SerD α) (m : Mode) (l : Loc) (v : α) : Prog Nat :=
  if s.hasCache v then Prog.get l else s.computeSize m l v

/-- The default `Serialize::is_omissible`, `steit/src/ser.rs:36-41`. -/
def isOmissibleBySize (s : SerD α) (m : Mode) (l : Loc) (v : α) (sizeHint : Option Nat) : Prog Bool :=
  match sizeHint with
  | some size => pure (size == 0)
  | none => do
    let size ← s.cachedSize m l v
    return size == 0

end SerD

/-- A dictionary for `HasWireType + Serialize + Deserialize (+ State)`.

Types that do not implement `State` (strings, bytes, vectors, arrays, tuples, options, hash maps and messages deriving
only `Serialize`/`Deserialize`) still fill the `State` entries, with values no modelled code uses:
`withRuntime _ = dflt`, `runtime = none`, `setRuntime _ v = v`, failing `handle`.
(`steit/src/wire_fmt.rs:39-49`, `steit/src/ser.rs:8-96`, `steit/src/de/de.rs:7-39`, `steit/src/state.rs:11-58`.) -/
structure Dict (α : Type) extends SerD α where
  /-- `HasWireType::WIRE_TYPE`, `steit/src/wire_fmt.rs:40`. -/
  wire : WireType
  /-- `Serialize::is_omissible`, `steit/src/ser.rs:36-41` (overridden by primitives). -/
  isOmissible : Mode → Loc → α → Option Nat → Prog Bool
  /-- `Default::default`, a supertrait method of `Deserialize`, `steit/src/de/de.rs:7`. -/
  dflt : α
  /-- `Deserialize::merge`, `steit/src/de/de.rs:8`. -/
  merge : Mode → α → Bytes → Res α
  /-- `State::with_runtime`, `steit/src/state.rs:12`. -/
  withRuntime : Rt → α
  /-- `State::runtime`, `steit/src/state.rs:13`; `none` models the panic of primitives. -/
  runtime : α → Option Rt
  /-- `State::set_runtime`, `steit/src/state.rs:14`. -/
  setRuntime : Rt → α → α
  /-- `State::is_root`, `steit/src/state.rs:24-26` (overridden by enums). -/
  isRoot : α → Except Err Bool
  /-- `State::handle_update`, `steit/src/state.rs:32-35` (overridden by primitives and enums). -/
  handleUpdate : Mode → α → Bytes → Res α
  /-- `State::handle`, `steit/src/state.rs:16-22`; the path is the not yet consumed part. -/
  handle : Mode → α → List U32 → LogKind → Option U32 → Bytes → Res α

/-- `Reader::nested`, `steit/src/de/reader.rs:30-36`, together with running `body` on the nested reader: a `u64` length,
then a reader limited to that many bytes. `Take` does not notice that fewer bytes are left. Whatever `body` leaves unread
is still in front of the outer reader. -/
def withNested {α : Type} (m : Mode) (v : α) (bs : Bytes) (body : Bytes → Res α) : Res α :=
  match getVarint m 64 bs with
  | .error e => .err v e
  | .ok (size, rest) =>
    match body (rest.take size.toNat) with
    | .ok v' unread => .ok v' (unread ++ rest.drop size.toNat)
    | .err v' e => .err v' e

/-- `while !reader.eof()? { step }` (`Reader::eof`, `steit/src/de/reader.rs:26-28`). The fuel bounds the number of rounds;
callers pass the number of bytes left, which is enough because every round reads at least one byte. -/
def untilEof {α : Type} (step : α → Bytes → Res α) : Nat → α → Bytes → Res α
  | _, v, [] => .ok v []
  | 0, v, _ :: _ => .err v .diverge
  | fuel + 1, v, b :: bs =>
    match step v (b :: bs) with
    | .ok v' rest => untilEof step fuel v' rest
    | .err v' e => .err v' e

namespace Dict
variable {α : Type}

/-- `Serialize::compute_size_nested`, `steit/src/ser.rs:43-65`. -/
def computeSizeNested (d : Dict α) (m : Mode) (l : Loc) (v : α) (fieldNumber : Option U32) (isOmissible : Bool) :
    Prog Nat := do
  let size ← d.cacheSize m l v
  let omitted ←
    (if fieldNumber.isSome && isOmissible then d.isOmissible m l v (some size) else pure false)
  if omitted then
    return 0
  else
    let size ←
      (match d.wire with
      | .varint => pure size
      | .sized => Prog.addU32 m size (u32Size (BitVec.ofNat 32 size)))
    match fieldNumber with
    | none => return size
    | some fieldNumber =>
      let tag ← Prog.ofExcept (mkTag fieldNumber d.wire)
      Prog.addU32 m size (u32Size tag)

/-- `Serialize::serialize_nested`, `steit/src/ser.rs:67-89`. -/
def serializeNested (d : Dict α) (m : Mode) (l : Loc) (v : α) (fieldNumber : Option U32) (isOmissible : Bool) :
    Prog Bytes := do
  let omitted ←
    (if fieldNumber.isSome && isOmissible then d.isOmissible m l v none else pure false)
  if omitted then
    return []
  else
    let tag ←
      (match fieldNumber with
      | none => pure []
      | some fieldNumber => do
        let tag ← Prog.ofExcept (mkTag fieldNumber d.wire)
        pure (putVarint tag))
    let prefixed ←
      (match d.wire with
      | .varint => pure []
      | .sized => do
        let size ← d.cachedSize m l v
        pure (putVarint (BitVec.ofNat 32 size)))
    let payload ← d.serializeCached m l v
    return tag ++ prefixed ++ payload

/-- `Serialize::steit_serialize`, `steit/src/ser.rs:31-34`. -/
def steitSerialize (d : Dict α) (m : Mode) (l : Loc) (v : α) : Prog Bytes := do
  let _ ← d.cacheSize m l v
  d.serializeCached m l v

/-- `Serialize::to_bytes`, `steit/src/ser.rs:91-95`. -/
def toBytes (d : Dict α) (m : Mode) (v : α) : Prog Bytes :=
  (d.steitSerialize m [] v).unwrap

/-- What a call of `to_bytes` (`steit/src/ser.rs:91-95`) returns when the size caches hold `μ` before it. -/
def toBytesFrom (d : Dict α) (m : Mode) (μ : Prog.Mem) (v : α) : Except Err Bytes :=
  ((d.toBytes m v).run μ).1

/-- What a call of `compute_size` (`steit/src/ser.rs:9`) returns when the size caches hold `μ` before it. -/
def sizeFrom (d : Dict α) (m : Mode) (μ : Prog.Mem) (v : α) : Except Err Nat :=
  ((d.computeSize m [] v).run μ).1

/-- What a call of `compute_size_nested` followed by `serialize_nested` with the same arguments (`steit/src/ser.rs:43-89`)
writes, as in `struct.rs:312-322`, when the size caches hold `μ` before. -/
def writeNestedFrom (d : Dict α) (m : Mode) (μ : Prog.Mem) (v : α) (fieldNumber : Option U32) (isOmissible : Bool) :
    Except Err Bytes :=
  ((do
    let _ ← d.computeSizeNested m [] v fieldNumber isOmissible
    d.serializeNested m [] v fieldNumber isOmissible : Prog Bytes).run μ).1

/-- `Deserialize::deserialize`, `steit/src/de/de.rs:10-14`. -/
def deserialize (d : Dict α) (m : Mode) (bs : Bytes) : Except Err (α × Bytes) :=
  match d.merge m d.dflt bs with
  | .ok v rest => .ok (v, rest)
  | .err _ e => .error e

/-- `Deserialize::merge_nested`, `steit/src/de/de.rs:16-29`. -/
def mergeNested (d : Dict α) (m : Mode) (v : α) (wireType : WireType) (bs : Bytes) : Res α :=
  if wireType ≠ d.wire then
    match skipField m wireType bs with
    | .ok rest => .ok v rest
    | .error e => .err v e
  else
    match wireType with
    | .varint => d.merge m v bs
    | .sized => withNested m v bs (d.merge m v)

/-- `Deserialize::deserialize_nested`, `steit/src/de/de.rs:31-38`. -/
def deserializeNested (d : Dict α) (m : Mode) (wireType : WireType) (bs : Bytes) : Except Err (α × Bytes) :=
  match d.mergeNested m d.dflt wireType bs with
  | .ok v rest => .ok (v, rest)
  | .err _ e => .error e

end Dict

/-- The default `State::handle_update`, `steit/src/state.rs:32-35`. -/
def handleUpdateDefault {α : Type} (runtime : α → Option Rt) (withRuntime : Rt → α) (merge : Mode → α → Bytes → Res α)
    (m : Mode) (v : α) (bs : Bytes) : Res α :=
  match runtime v with
  | none => .err v .panic
  | some rt => merge m (withRuntime rt) bs

/-- The default `State::is_root`, `steit/src/state.rs:24-26`. -/
def isRootDefault {α : Type} (runtime : α → Option Rt) (v : α) : Except Err Bool :=
  match runtime v with
  | none => .error .panic
  | some rt => .ok rt.isRoot

end Steit
