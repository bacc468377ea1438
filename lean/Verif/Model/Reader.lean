import Verif.Model.Replay

/-!
# Reading from an `io::Read` (`steit/src/de/reader.rs` and every `merge`)

The other files of the model read from a list of bytes. Here reading is done as in the source: on a stack of readers over any
`io::Read`, which may return fewer bytes than asked for, and which may fail. `Reader::eof` asks for a byte in advance and keeps it;
`Reader::nested` builds the reader for a nested value on the source *behind* that byte. `Verif/Props/Reader.lean` shows that all this
comes to reading from the list of bytes the source delivers.

Sources do not return `ErrorKind::Interrupted` (the standard library retries then; whether iowrap does is not part of the
repository).
-/

namespace Steit

/-- An `io::Read` with states `ρ`: `read n s` is a call with a buffer of `n` bytes; it returns the bytes put in the buffer, or fails.
(`steit/src/de/reader.rs:9-24`.) -/
structure Source (ρ : Type) where
  read : Nat → ρ → Except Unit (Bytes × ρ)

/-- Errors of a reading function: one of the library's own, or one returned by the source. (`steit/src/de/reader.rs:26-74`.) -/
inductive IoErr
  | lib (e : Err)
  | source
  deriving DecidableEq

/-- `Reader<R>`, `steit/src/de/reader.rs:9-11`, with its `iowrap::Eof<R>`: the byte asked for in advance, if there is one, and the
source. -/
structure Rdr (ρ : Type) where
  next : Option Byte
  raw : ρ

/-- `Reader::new`, `reader.rs:14-18`. -/
def Rdr.new {ρ : Type} (s : ρ) : Rdr ρ := ⟨none, s⟩

/-- Result of a method `fn(&mut self, reader) -> io::Result<()>`: as `Res`, with the reader. (`steit/src/de/de.rs:7-39`.) -/
inductive RRes (ρ α : Type) where
  | ok (val : α) (rd : Rdr ρ)
  | err (val : α) (e : IoErr)

/-- Apply a function to the target (projection into an enclosing object, as `Res.map`). (`steit/src/de/de.rs:7-39`.) -/
def RRes.map {ρ α β : Type} (f : α → β) : RRes ρ α → RRes ρ β
  | .ok v rd => .ok (f v) rd
  | .err v e => .err (f v) e

/-- What is not determined by the code of the repository: the buffer sizes `read_to_end` uses (one more than `buffer i` in round `i`),
and a bound on the number of rounds of all loops (in place of termination).
(Buffers of `steit/src/de/reader.rs:26-28`, `steit/src/impls/string.rs:24-29`, `steit/src/types/bytes.rs:58-65`.) -/
structure Env where
  buffer : Nat → Nat
  fuel : Nat

namespace Source
variable {ρ : Type}

/-- `Read for io::Take<R>` (standard library): nothing at the limit, else at most what is left to it.
(Made in `steit/src/de/reader.rs:30-36`.) -/
def take (R : Source ρ) : Source (Nat × ρ) where
  read n s :=
    if s.1 = 0 then .ok ([], s)
    else
      match R.read (min n s.1) s.2 with
      | .error e => .error e
      | .ok (got, s') => .ok (got, (s.1 - got.length, s'))

/-- `Read for Reader<R>`, `reader.rs:64-68`, which is that of `iowrap::Eof`: the byte asked for in advance comes first. -/
def rdr (R : Source ρ) : Source (Rdr ρ) where
  read n rd :=
    if n = 0 then .ok ([], rd)
    else
      match rd.next with
      | some b => .ok ([b], ⟨none, rd.raw⟩)
      | none =>
        match R.read n rd.raw with
        | .error e => .error e
        | .ok (got, s) => .ok (got, ⟨none, s⟩)

/-- `Reader::eof`, `reader.rs:26-28`, which is `Eof::eof`: ask for one byte, unless that has been done. -/
def eof (R : Source ρ) (rd : Rdr ρ) : Except IoErr (Bool × Rdr ρ) :=
  match rd.next with
  | some _ => .ok (false, rd)
  | none =>
    match R.read 1 rd.raw with
    | .error _ => .error .source
    | .ok ([], s) => .ok (true, ⟨none, s⟩)
    | .ok (b :: _, s) => .ok (false, ⟨some b, s⟩)

/-- `reader.read_exact(&mut buf)` with a buffer of one byte (standard library). (Called in `steit/src/impls/varint.rs:40-69`.) -/
def readByte (R : Source ρ) (rd : Rdr ρ) : Except IoErr (Byte × Rdr ρ) :=
  match R.rdr.read 1 rd with
  | .error _ => .error .source
  | .ok ([], _) => .error (.lib .unexpectedEof)
  | .ok (b :: _, rd) => .ok (b, rd)

/-- `read_to_end` (standard library), round `i`: read until nothing comes. What has been read before the source fails is appended to
the caller's buffer, too. (Called in `steit/src/impls/string.rs:24-29`.) -/
def readToEnd (R : Source ρ) (env : Env) : (fuel i : Nat) → ρ → Bytes → Except (IoErr × Bytes) (Bytes × ρ)
  | fuel, i, s, acc =>
    match R.read (env.buffer i + 1) s with
    | .error _ => .error (.source, acc)
    | .ok ([], s) => .ok (acc, s)
    | .ok (b :: bs, s) =>
      match fuel with
      | 0 => .error (.lib .diverge, acc)
      | fuel + 1 => readToEnd R env fuel (i + 1) s (acc ++ b :: bs)

/-- The reader loop of unsigned integers, `steit/src/impls/varint.rs:46-61`. -/
def getLoop (R : Source ρ) (m : Mode) {w : Nat} : (fuel : Nat) → Rdr ρ → BitVec w → Nat → Except IoErr (BitVec w × Rdr ρ)
  | fuel, rd, value, offset =>
    match R.readByte rd with
    | .error e => .error e
    | .ok (b, rd) =>
      match shlChecked m ((b &&& 0x7f#8).setWidth w) offset with
      | .error e => .error (.lib e)
      | .ok shifted =>
        let value := value ||| shifted
        if b &&& 0x80#8 = 0#8 then .ok (value, rd)
        else
          match fuel with
          | 0 => .error (.lib .diverge)
          | fuel + 1 => getLoop R m fuel rd value (offset + 7)

/-- `deserialize` of an unsigned integer of width `w`, `steit/src/impls/varint.rs:40-62` and `steit/src/de/de.rs:10-14`. -/
def getVarint (R : Source ρ) (env : Env) (m : Mode) (w : Nat) (rd : Rdr ρ) : Except IoErr (BitVec w × Rdr ρ) :=
  getLoop R m env.fuel rd 0#w 0

/-- `merge` of a signed integer into a fresh value, `steit/src/impls/varint.rs:110-117`. -/
def getSigned (R : Source ρ) (env : Env) (m : Mode) (w : Nat) (rd : Rdr ρ) : Except IoErr (BitVec w × Rdr ρ) :=
  match R.getVarint env m w rd with
  | .error e => .error e
  | .ok (encoded, rd) => .ok (unzigzag encoded, rd)

/-- The reader loop of a bool, `steit/src/impls/bool.rs:24-37`. -/
def getBoolLoop (R : Source ρ) : (fuel : Nat) → Rdr ρ → Bool → Except IoErr (Bool × Rdr ρ)
  | fuel, rd, value =>
    match R.readByte rd with
    | .error e => .error e
    | .ok (b, rd) =>
      let value := value || (b &&& 0x7f#8 != 0#8)
      if b &&& 0x80#8 = 0#8 then .ok (value, rd)
      else
        match fuel with
        | 0 => .error (.lib .diverge)
        | fuel + 1 => getBoolLoop R fuel rd value

/-- `deserialize` of a bool, `steit/src/impls/bool.rs:24-37`. -/
def getBool (R : Source ρ) (env : Env) (rd : Rdr ρ) : Except IoErr (Bool × Rdr ρ) :=
  getBoolLoop R env.fuel rd false

/-- `Reader::read_tag`, `steit/src/de/reader.rs:38-41`. -/
def readTag (R : Source ρ) (env : Env) (m : Mode) (rd : Rdr ρ) : Except IoErr ((U32 × WireType) × Rdr ρ) :=
  match R.getVarint env m 32 rd with
  | .error e => .error e
  | .ok (value, rd) =>
    match parseTag value with
    | .error e => .error (.lib e)
    | .ok tag => .ok (tag, rd)

/-- `Reader::skip_field`, `steit/src/de/reader.rs:43-57`: `self.by_ref().take(size).read_to_end(&mut buf)`. -/
def skipField (R : Source ρ) (env : Env) (m : Mode) (wireType : WireType) (rd : Rdr ρ) : Except IoErr (Rdr ρ) :=
  match wireType with
  | .varint =>
    match R.getVarint env m 8 rd with
    | .error e => .error e
    | .ok (_, rd) => .ok rd
  | .sized =>
    match R.getVarint env m 64 rd with
    | .error e => .error e
    | .ok (size, rd) =>
      if 2 ^ 63 ≤ size.toNat then .error (.lib .panic)
      else
        match R.rdr.take.readToEnd env env.fuel 0 (size.toNat, rd) [] with
        | .error e => .error e.1
        | .ok (_, (_, rd)) => .ok rd

/-- `Reader::as_mut_read`, `reader.rs:20-24`: a reader with an empty `Eof` on the source of this one, `self.inner.get_mut()`. The byte
asked for in advance stays with `self`. -/
def asMutRead (rd : Rdr ρ) : Rdr ρ := ⟨none, rd.raw⟩

/-- `Reader::nested`, `reader.rs:30-36`, together with running `body` on the nested reader, of type
`Reader<io::Take<Reader<&mut dyn io::Read>>>`. When it is dropped, what its two `Eof`s hold is lost and the outer reader goes on with
the byte it had asked for in advance and the source as the nested reader left it. -/
def withNested {α : Type} (R : Source ρ) (env : Env) (m : Mode) (v : α) (rd : Rdr ρ)
    (body : Rdr (Nat × Rdr ρ) → RRes (Nat × Rdr ρ) α) : RRes ρ α :=
  match R.getVarint env m 64 rd with
  | .error e => .err v e
  | .ok (size, rd) =>
    match body (.new (size.toNat, asMutRead rd)) with
    | .ok v' child => .ok v' ⟨rd.next, child.raw.2.raw⟩
    | .err v' e => .err v' e

/-- `while !reader.eof()? { step }`. (As in `steit-derive/src/derive/struct.rs:378-384`, `steit/src/impls/vec.rs:40-47`.) -/
def untilEof {α : Type} (R : Source ρ) (step : α → Rdr ρ → RRes ρ α) : (fuel : Nat) → α → Rdr ρ → RRes ρ α
  | fuel, v, rd =>
    match R.eof rd with
    | .error e => .err v e
    | .ok (true, rd) => .ok v rd
    | .ok (false, rd) =>
      match fuel with
      | 0 => .err v (.lib .diverge)
      | fuel + 1 =>
        match step v rd with
        | .ok v' rd => untilEof R step fuel v' rd
        | .err v' e => .err v' e

end Source

/-- `Deserialize::merge`, `steit/src/de/de.rs:8`, generic in the source as in Rust. -/
abbrev Merging (α : Type) := (ρ : Type) → Source ρ → Env → Mode → α → Rdr ρ → RRes ρ α

/-- `Deserialize::merge_nested`, `steit/src/de/de.rs:16-29`. -/
def mergeNestedR {α ρ : Type} (wire : WireType) (r : Merging α) (R : Source ρ) (env : Env) (m : Mode) (v : α) (wireType : WireType)
    (rd : Rdr ρ) : RRes ρ α :=
  if wireType ≠ wire then
    match R.skipField env m wireType rd with
    | .ok rd => .ok v rd
    | .error e => .err v e
  else
    match wireType with
    | .varint => r _ R env m v rd
    | .sized => R.withNested env m v rd (r _ R.rdr.take env m v)

/-- `Deserialize::deserialize_nested`, `steit/src/de/de.rs:31-38`. -/
def deserializeNestedR {α ρ : Type} (wire : WireType) (dflt : α) (r : Merging α) (R : Source ρ) (env : Env) (m : Mode)
    (wireType : WireType) (rd : Rdr ρ) : Except IoErr (α × Rdr ρ) :=
  match mergeNestedR wire r R env m dflt wireType rd with
  | .ok v rd => .ok (v, rd)
  | .err _ e => .error e

/-- `merge` of integers and bools, `steit/src/impls/varint.rs:40-62,110-117`, `bool.rs:24-37`. -/
def primR {α ρ : Type} (get : Rdr ρ → Except IoErr (α × Rdr ρ)) (v : α) (rd : Rdr ρ) : RRes ρ α :=
  match get rd with
  | .ok (v', rd) => .ok v' rd
  | .error e => .err v e

/-- `String::merge`, `steit/src/impls/string.rs:24-29`. -/
def stringR : Merging Str := fun _ R env _ s rd =>
  match R.rdr.readToEnd env env.fuel 0 rd [] with
  | .error e => .err s e.1
  | .ok (bs, rd) => if h : utf8Valid bs = true then .ok ⟨bs, h⟩ rd else .err s (.lib .invalidData)

/-- `Bytes::merge`, `steit/src/types/bytes.rs:60-63`. -/
def bytesR : Merging Bytes := fun _ R env _ s rd =>
  match R.rdr.readToEnd env env.fuel 0 rd [] with
  | .error e => .err (s ++ e.2) e.1
  | .ok (bs, rd) => .ok (s ++ bs) rd

/-- One round of `Vec::merge`, `steit/src/impls/vec.rs:42-43`. -/
def vecStepR {α ρ : Type} (d : Dict α) (r : Merging α) (R : Source ρ) (env : Env) (m : Mode) (xs : List α) (rd : Rdr ρ) :
    RRes ρ (List α) :=
  match deserializeNestedR d.wire d.dflt r R env m d.wire rd with
  | .ok (x, rd) => .ok (xs ++ [x]) rd
  | .error e => .err xs e

/-- The loop of `[T; n]::merge`, `steit/src/impls/array.rs:43-49`, as `arrayLoop`. -/
def arrayLoopR {α ρ : Type} (d : Dict α) (r : Merging α) (R : Source ρ) (env : Env) (m : Mode) :
    (done : List α) → (todo : List α) → Rdr ρ → RRes ρ { xs : List α // xs.length = done.length + todo.length }
  | done, [], rd => .ok ⟨done, by simp⟩ rd
  | done, t :: todo, rd =>
    match R.eof rd with
    | .error e => .err ⟨done ++ t :: todo, by simp⟩ e
    | .ok (true, rd) => .ok ⟨done ++ t :: todo, by simp⟩ rd
    | .ok (false, rd) =>
      match deserializeNestedR d.wire d.dflt r R env m d.wire rd with
      | .error e => .err ⟨done ++ t :: todo, by simp⟩ e
      | .ok (x, rd) =>
        (arrayLoopR d r R env m (done ++ [x]) todo rd).map
          (fun xs => ⟨xs.1, by have := xs.2; simp at this ⊢; omega⟩)

/-- `[T; n]::merge`, `steit/src/impls/array.rs:42-55`. -/
def arrayR {α : Type} (n : Nat) (d : Dict α) (r : Merging α) : Merging (ArrayV α n) := fun _ R env m xs rd =>
  match (arrayLoopR d r R env m [] xs.1 rd).map
      (fun ys => (⟨ys.1, by have := ys.2; have := xs.2; simp_all⟩ : ArrayV α n)) with
  | .err ys e => .err ys e
  | .ok ys rd =>
    match R.rdr.readToEnd env env.fuel 0 rd [] with
    | .error e => .err ys e.1
    | .ok (_, rd) => .ok ys rd

/-- One round of `Option<T>::merge`, `steit/src/impls/option.rs:38-44`. -/
def optionStepR {α ρ : Type} (d : Dict α) (r : Merging α) (R : Source ρ) (env : Env) (m : Mode) (o : Option α) (rd : Rdr ρ) :
    RRes ρ (Option α) :=
  (mergeNestedR d.wire r R env m (o.getD d.dflt) d.wire rd).map some

/-- `let A = A::deserialize_nested(..)?; …`, `steit/src/impls/tuple.rs:39`. -/
abbrev TupleR (α : Type) := (ρ : Type) → Source ρ → Env → Mode → Rdr ρ → Except IoErr (α × Rdr ρ)

/-- A component and the remaining ones, `steit/src/impls/tuple.rs:39`. -/
def tupleConsR {α β : Type} (d : Dict α) (r : Merging α) (t : TupleR β) : TupleR (α × β) := fun _ R env m rd =>
  match deserializeNestedR d.wire d.dflt r R env m d.wire rd with
  | .error e => .error e
  | .ok (x, rd) =>
    match t _ R env m rd with
    | .error e => .error e
    | .ok (y, rd) => .ok ((x, y), rd)

/-- `merge` of tuples, `steit/src/impls/tuple.rs:38-46`. -/
def tupleR {α : Type} (t : TupleR α) : Merging α := fun _ R env m v rd =>
  match t _ R env m rd with
  | .error e => .err v e
  | .ok (v', rd) =>
    match R.rdr.readToEnd env env.fuel 0 rd [] with
    | .error e => .err v' e.1
    | .ok (_, rd) => .ok v' rd

/-- One round of `HashMap::merge`, `steit/src/impls/hash_map.rs:43-45`. -/
def hashMapStepR {κ ν ρ : Type} (eq : κ → κ → Bool) (dk : Dict κ) (rk : Merging κ) (dv : Dict ν) (rv : Merging ν) (R : Source ρ)
    (env : Env) (m : Mode) (es : List (κ × ν)) (rd : Rdr ρ) : RRes ρ (List (κ × ν)) :=
  match deserializeNestedR dk.wire dk.dflt rk R env m dk.wire rd with
  | .error e => .err es e
  | .ok (k, rd) =>
    match deserializeNestedR dv.wire dv.dflt rv R env m dv.wire rd with
    | .error e => .err es e
    | .ok (v, rd) => .ok (hashInsert eq k v es) rd

/-- One round of `List::merge`, `steit/src/types/list.rs:182-185`. -/
def listStepR {α ρ : Type} (d : Dict α) (r : Merging α) (R : Source ρ) (env : Env) (m : Mode) (l : ListV α) (rd : Rdr ρ) :
    RRes ρ (ListV α) :=
  let item := d.withRuntime (l.rt.nested (fieldNo l.items.length))
  match mergeNestedR d.wire r R env m item d.wire rd with
  | .ok item rd => .ok { l with items := l.items ++ [item] } rd
  | .err _ e => .err l e

/-- The key-reading part of a round of `Map::merge`, `steit/src/types/map/map.rs:186-189`. -/
def readMapKeyR {ρ : Type} (R : Source ρ) (env : Env) (m : Mode) (kt : KeyTy) (rd : Rdr ρ) : Except IoErr (U32 × Rdr ρ) :=
  match R.getVarint env m 32 rd with
  | .error e => .error e
  | .ok (value, rd) =>
    match parseTag value with
    | .error e => .error (.lib e)
    | .ok (fieldNumber, _) =>
      match validateFieldNumber fieldNumber with
      | .error e => .error (.lib e)
      | .ok _ =>
        match kt.tryFromFieldNumber fieldNumber with
        | .error e => .error (.lib e)
        | .ok _ => .ok (fieldNumber, rd)

/-- One round of `Map::merge`, `steit/src/types/map/map.rs:186-197`. -/
def mapStepR {α ρ : Type} (kt : KeyTy) (d : Dict α) (r : Merging α) (R : Source ρ) (env : Env) (m : Mode) (v : MapV α) (rd : Rdr ρ) :
    RRes ρ (MapV α) :=
  match readMapKeyR R env m kt rd with
  | .error e => .err v e
  | .ok (k, rd) =>
    match entriesGet k v.entries with
    | some x =>
      (mergeNestedR d.wire r R env m x d.wire rd).map (fun x => { v with entries := entriesInsert k x v.entries })
    | none =>
      match mergeNestedR d.wire r R env m (d.withRuntime (v.rt.nested k)) d.wire rd with
      | .ok x rd => .ok { v with entries := entriesInsert k x v.entries } rd
      | .err _ e => .err v e

/-- The arms of `merger`, `struct.rs:356-370`, as `FieldsD.mergeField`. -/
abbrev FieldR (β : Type) := (ρ : Type) → Source ρ → Env → Mode → U32 → WireType → β → Rdr ρ → Option (RRes ρ β)

/-- The arm of a field and the remaining ones, `field.rs:376-380`. -/
def fieldsConsR {α β : Type} (tag : U32) (d : Dict α) (r : Merging α) (fs : FieldR β) : FieldR (α × β) :=
  fun _ R env m fieldNumber wireType v rd =>
    if fieldNumber = tag then some ((mergeNestedR d.wire r R env m v.1 wireType rd).map (fun x => (x, v.2)))
    else (fs _ R env m fieldNumber wireType v.2 rd).map (fun r => r.map (fun y => (v.1, y)))

/-- One round of `merger`, `struct.rs:362-367`. -/
def mergeStepR {β ρ : Type} (fs : FieldR β) (R : Source ρ) (env : Env) (m : Mode) (v : β) (rd : Rdr ρ) : RRes ρ β :=
  match R.readTag env m rd with
  | .error e => .err v e
  | .ok ((fieldNumber, wireType), rd) =>
    match fs _ R env m fieldNumber wireType v rd with
    | some r => r
    | none =>
      match R.skipField env m wireType rd with
      | .ok rd => .ok v rd
      | .error e => .err v e

/-- `merger`, `struct.rs:356-370`. -/
def fieldsMergeR {β : Type} (fs : FieldR β) : Merging β := fun _ R env m v rd =>
  R.untilEof (mergeStepR fs R env m) env.fuel v rd

/-- `Deserialize::merge` of an enum, `enum.rs:288-342`, as `enumMerge`; `r` is the `merger` of the current variant's fields. -/
def enumR {γ : Type} (deriveState : Bool) (vs : VariantsD γ) (r : Merging γ) : Merging (EnumV γ) := fun _ R env m v rd =>
  match R.getVarint env m 32 rd with
  | .error e => .err v e
  | .ok (tag, rd) =>
    if tag = vs.tagOf v.val then (r _ R env m v.val rd).map (fun val => { v with val })
    else if deriveState then
      match v.rt.parent with
      | .error e => match vs.ctor tag none with
        | none => .err v (.lib .invalidData)
        | some _ => .err v (.lib e)
      | .ok parent =>
        match vs.ctor tag (some (parent.nested tag)) with
        | none => .err v (.lib .invalidData)
        | some val => (r _ R env m val rd).map (fun val => ⟨parent.nested tag, val⟩)
    else
      match vs.ctor tag none with
      | none => .err v (.lib .invalidData)
      | some val => (r _ R env m val rd).map (fun val => { v with val })

/-- The `merger` of one variant and the remaining ones, `enum.rs:313-315`. -/
def variantsConsR {β γ : Type} (fs : FieldR β) (r : Merging γ) : Merging (β ⊕ γ) := fun _ R env m v rd =>
  match v with
  | .inl v => (fieldsMergeR fs _ R env m v rd).map .inl
  | .inr v => (r _ R env m v rd).map .inr

mutual
/-- `Deserialize::merge` of a type. (`steit/src/de/de.rs:8` (files cited at the functions called).) -/
def Ty.mergeR : (t : Ty) → Merging t.El
  | .uint w => fun _ R env m v rd => primR (R.getVarint env m w.bits) v rd
  | .sint w => fun _ R env m v rd => primR (R.getSigned env m w.bits) v rd
  | .bool => fun _ R env _ v rd => primR (R.getBool env) v rd
  | .string => stringR
  | .bytes => bytesR
  | .vec t => fun _ R env m xs rd => R.untilEof (vecStepR t.dict t.mergeR R env m) env.fuel xs rd
  | .array n t => arrayR n t.dict t.mergeR
  | .tuple ts => tupleR ts.readR
  | .option t => fun _ R env m o rd => R.untilEof (optionStepR t.dict t.mergeR R env m) env.fuel o rd
  | .box t => t.mergeR
  | .hashMap k v => fun _ R env m es rd =>
    R.untilEof (hashMapStepR k.eq k.dict k.mergeR v.dict v.mergeR R env m) env.fuel es rd
  | .list t => fun _ R env m l rd => R.untilEof (listStepR t.dict t.mergeR R env m) env.fuel l rd
  | .map k t => fun _ R env m v rd => R.untilEof (mapStepR k t.dict t.mergeR R env m) env.fuel v rd
  | .struct _ _ fs => fun _ R env m v rd =>
    (fieldsMergeR fs.fieldR _ R env m v.fields rd).map (fun fields => { v with fields })
  | .enum deriveState cached fs vs =>
    enumR deriveState (variantsCons 0#32 cached (fs.dict deriveState) (vs.dict deriveState))
      (variantsConsR fs.fieldR vs.mergeR)

/-- The components of a tuple are read. (`steit/src/impls/tuple.rs:38-49`.) -/
def Tys.readR : (ts : Tys) → TupleR ts.El
  | .nil => fun _ _ _ _ rd => .ok ((), rd)
  | .cons t ts => tupleConsR t.dict t.mergeR ts.readR

/-- The arms of the generated `merger` of a struct or variant.
(`steit-derive/src/derive/field.rs:376-380`, `steit-derive/src/derive/struct.rs:356-370`.) -/
def Fields.fieldR : (fs : Fields) → FieldR fs.El
  | .nil => fun _ _ _ _ _ _ _ _ => none
  | .cons tag _ t fs => fieldsConsR tag t.dict t.mergeR fs.fieldR

/-- The `merger` of the current variant. (`steit-derive/src/derive/enum.rs:288-342`.) -/
def Variants.mergeR : (vs : Variants) → Merging vs.El
  | .nil => fun _ _ _ _ v _ => nomatch v
  | .cons _ _ fs vs => variantsConsR fs.fieldR vs.mergeR
end

/-- One round of the loop of `State::replay`, `steit/src/state.rs:46-53`. The payload of the entry is in memory and read from there. -/
def replayStepR {α ρ : Type} (d : Dict α) (R : Source ρ) (env : Env) (m : Mode) (v : α) (rd : Rdr ρ) : RRes ρ α :=
  match deserializeNestedR logEntryTy.dict.wire logEntryTy.dict.dflt logEntryTy.mergeR R env m logEntryTy.dict.wire rd with
  | .error e => .err v e
  | .ok (entry, rd) =>
    match applyEntry d m v (Entry.ofEl entry) with
    | .ok v' _ => .ok v' rd
    | .err v' e => .err v' (.lib e)

/-- `State::replay`, `steit/src/state.rs:37-57`, from any source. -/
def replayR {α ρ : Type} (d : Dict α) (R : Source ρ) (env : Env) (m : Mode) (v : α) (rd : Rdr ρ) : RRes ρ α :=
  match d.isRoot v with
  | .error e => .err v (.lib e)
  | .ok false => .err v (.lib .invalidInput)
  | .ok true => R.untilEof (replayStepR d R env m) env.fuel v rd

end Steit
