import Verif.Model.Log

/-!
# Writing to an `io::Write` (every `serialize_cached`)

The other files of the model collect the bytes that are written. Here they are written as in the source, call by call, to any
`io::Write`, which may take fewer bytes than it is given, and which may fail. `Verif/Props/Sink.lean` shows that this comes to
collecting the bytes.

Sinks do not return `ErrorKind::Interrupted` (the standard library tries again then).
-/

namespace Steit

/-- An `io::Write` with states `σ`: `write bs s` offers it `bs`; it answers how many of them it took, or fails.
(The `writer` of `steit/src/ser.rs:10,31-34,67-89`.) -/
structure Sink (σ : Type) where
  write : Bytes → σ → Except Unit Nat × σ

/-- Errors of a writing function: one of the library's own (or a panic), or one of the sink, `ErrorKind::WriteZero` included.
(The `writer` of `steit/src/ser.rs:10,31-34,67-89`.) -/
inductive OutErr
  | lib (e : Err)
  | sink
  deriving DecidableEq

/-- `io::Write::write_all` (standard library): offer what has not been taken yet until nothing is left. A sink that takes nothing
is an error, one that claims to have taken more than it was offered makes the slicing panic. Every round but the last takes a byte,
so the number of bytes is enough fuel.
(Called in `steit/src/impls/varint.rs:21-37`, `steit/src/impls/string.rs:17-19`, `steit/src/types/bytes.rs:44-52`.) -/
def Sink.writeAll {σ : Type} (S : Sink σ) : (fuel : Nat) → Bytes → σ → Except OutErr Unit × σ
  | _, [], s => (.ok (), s)
  | 0, _ :: _, s => (.error (.lib .diverge), s)
  | fuel + 1, b :: bs, s =>
    match S.write (b :: bs) s with
    | (.error _, s) => (.error .sink, s)
    | (.ok n, s) =>
      if n = 0 then (.error .sink, s)
      else if n ≤ bs.length + 1 then S.writeAll fuel ((b :: bs).drop n) s
      else (.error (.lib .panic), s)

/-- Programs over size caches (`Verif/Model/Prog.lean`) that also write: `write bs` is a call of `write_all`.
(The `writer` of `steit/src/ser.rs:10,31-34,67-89`.) -/
inductive WProg (α : Type) where
  | pure (a : α)
  | fail (e : Err)
  | load (l : Loc) (k : Nat → WProg α)
  | store (l : Loc) (n : Nat) (k : WProg α)
  | write (bs : Bytes) (k : WProg α)

namespace WProg

/-- Sequential composition (and Rust's `?`). (The `writer` of `steit/src/ser.rs:10,31-34,67-89`.) -/
def bind {α β : Type} : WProg α → (α → WProg β) → WProg β
  | pure a, f => f a
  | fail e, _ => fail e
  | load l k, f => load l (fun n => bind (k n) f)
  | store l n k, f => store l n (bind k f)
  | write bs k, f => write bs (bind k f)

instance : Monad WProg where
  pure := pure
  bind := bind

/-- A program that does not write. (The `writer` of `steit/src/ser.rs:10,31-34,67-89`.) -/
def lift {α : Type} : Prog α → WProg α
  | .pure a => pure a
  | .fail e => fail e
  | .load l k => load l (fun n => lift (k n))
  | .store l n k => store l n (lift k)

/-- `writer.write_all(bytes)`.
(Called in `steit/src/impls/varint.rs:21-37`, `steit/src/impls/string.rs:17-19`, `steit/src/types/bytes.rs:44-52`.) -/
def writeAll (bs : Bytes) : WProg Unit := write bs (pure ())

/-- Varints are written byte by byte, `steit/src/impls/varint.rs:27-34`. -/
def writeEach : Bytes → WProg Unit
  | [] => pure ()
  | b :: bs => write [b] (writeEach bs)

/-- Run a program alone on size caches and a sink. (The `writer` of `steit/src/ser.rs:10,31-34,67-89`.) -/
def run {α σ : Type} (S : Sink σ) : WProg α → Prog.Mem → σ → Except OutErr α × Prog.Mem × σ
  | pure a, μ, s => (.ok a, μ, s)
  | fail e, μ, s => (.error (.lib e), μ, s)
  | load l k, μ, s => run S (k (μ l)) μ s
  | store l n k, μ, s => run S k (fun l' => if l' = l then n else μ l') s
  | write bs k, μ, s =>
    match S.writeAll bs.length bs s with
    | (.ok _, s) => run S k μ s
    | (.error e, s) => (.error e, μ, s)

end WProg

/-- `Serialize::serialize_cached`, `steit/src/ser.rs:10`. -/
abbrev Writing (α : Type) := Mode → Loc → α → WProg Unit

/-- `Serialize::serialize_nested`, `steit/src/ser.rs:67-89`. -/
def serializeNestedW {α : Type} (d : Dict α) (w : Writing α) (m : Mode) (l : Loc) (v : α) (fieldNumber : Option U32)
    (isOmissible : Bool) : WProg Unit := do
  let omitted ← WProg.lift
    (if fieldNumber.isSome && isOmissible then d.isOmissible m l v none else pure false)
  if omitted then
    return ()
  else
    match fieldNumber with
    | none => pure ()
    | some fieldNumber => do
      let tag ← WProg.lift (Prog.ofExcept (mkTag fieldNumber d.wire))
      WProg.writeEach (putVarint tag)
    match d.wire with
    | .varint => pure ()
    | .sized => do
      let size ← WProg.lift (d.cachedSize m l v)
      WProg.writeEach (putVarint (BitVec.ofNat 32 size))
    w m l v

/-- `Serialize::steit_serialize`, `steit/src/ser.rs:31-34`. Primitives (`steit/src/impls/macros.rs:28-30`) do not compute their size
first, which has no effects for them. -/
def steitSerializeW {α : Type} (d : Dict α) (w : Writing α) (m : Mode) (l : Loc) (v : α) : WProg Unit := do
  let _ ← WProg.lift (d.cacheSize m l v)
  w m l v

/-- The loops of `Vec` and arrays, `steit/src/impls/vec.rs:27-29`, `array.rs:29-31`. -/
def writeItems {α : Type} (d : Dict α) (w : Writing α) (m : Mode) (l : Loc) : Nat → List α → WProg Unit
  | _, [] => pure ()
  | i, x :: xs => do
    serializeNestedW d w m (l ++ [i]) x none false
    writeItems d w m l (i + 1) xs

/-- `Option<T>`, `steit/src/impls/option.rs:23-28`. -/
def writeOption {α : Type} (d : Dict α) (w : Writing α) : Writing (Option α) := fun m l o =>
  match o with
  | some x => serializeNestedW d w m (l ++ [0]) x none false
  | none => pure ()

/-- The loop of `HashMap::serialize_cached`, `steit/src/impls/hash_map.rs:27-30`. -/
def writeEntries {κ ν : Type} (dk : Dict κ) (wk : Writing κ) (dv : Dict ν) (wv : Writing ν) (m : Mode) (l : Loc) :
    Nat → List (κ × ν) → WProg Unit
  | _, [] => pure ()
  | i, (k, v) :: es => do
    serializeNestedW dk wk m (l ++ [2 * i]) k none false
    serializeNestedW dv wv m (l ++ [2 * i + 1]) v none false
    writeEntries dk wk dv wv m l (i + 1) es

/-- The loop of `Map::serialize_cached`, `steit/src/types/map/map.rs:171-173`. -/
def writeMapEntries {α : Type} (d : Dict α) (w : Writing α) (m : Mode) (l : Loc) : Nat → List (U32 × α) → WProg Unit
  | _, [] => pure ()
  | i, (k, v) :: es => do
    serializeNestedW d w m (l ++ [i]) v (some k) false
    writeMapEntries d w m l (i + 1) es

mutual
/-- `Serialize::serialize_cached` of a type: `steit/src/impls/varint.rs:21-35,99-105`, `bool.rs:17-19`, `string.rs:17-19`,
`steit/src/types/bytes.rs:50-52`, `vec.rs:26-32`, `array.rs:28-34`, `tuple.rs:26-30`, `option.rs:23-28`, `box.rs:22-24`,
`hash_map.rs:26-33`, `list.rs:168-170`, `map.rs:170-176`, `struct.rs:318-322`, `enum.rs:236-252`. -/
def Ty.writes : (t : Ty) → Writing t.El
  | .uint _ => fun _ _ v => WProg.writeEach (putVarint v)
  | .sint _ => fun _ _ v => WProg.writeEach (putSigned v)
  | .bool => fun _ _ v => WProg.writeAll (putBool v)
  | .string => fun _ _ v => WProg.writeAll v.bytes
  | .bytes => fun _ _ v => WProg.writeAll v
  | .vec t => fun m l v => writeItems t.dict t.writes m l 0 v
  | .array _ t => fun m l v => writeItems t.dict t.writes m l 0 v.1
  | .tuple ts => fun m l v => ts.writes m l 0 v
  | .option t => writeOption t.dict t.writes
  | .box t => t.writes
  | .hashMap k v => fun m l es => writeEntries k.dict k.writes v.dict v.writes m l 0 es
  | .list t => fun m l v => writeItems t.dict t.writes m l 0 v.items
  | .map _ t => fun m l v => writeMapEntries t.dict t.writes m l 0 v.entries
  | .struct _ _ fs => fun m l v => fs.writes m l 0 v.fields
  | .enum _ _ fs vs => fun m l v =>
    match v.val with
    | .inl x => do
      WProg.writeEach (putVarint 0#32)
      fs.writes m l 0 x
    | .inr x => vs.writes m l x

/-- The components of a tuple, `steit/src/impls/tuple.rs:28`. -/
def Tys.writes : (ts : Tys) → Mode → Loc → Nat → ts.El → WProg Unit
  | .nil, _, _, _, _ => pure ()
  | .cons t ts, m, l, i, v => do
    serializeNestedW t.dict t.writes m (l ++ [i]) v.1 none false
    ts.writes m l (i + 1) v.2

/-- `serializer`, `struct.rs:318-322` and `field.rs:370-374`. -/
def Fields.writes : (fs : Fields) → Mode → Loc → Nat → fs.El → WProg Unit
  | .nil, _, _, _, _ => pure ()
  | .cons tag _ t fs, m, l, i, v => do
    serializeNestedW t.dict t.writes m (l ++ [i]) v.1 (some tag) true
    fs.writes m l (i + 1) v.2

/-- The arms of `serialize_cached` of an enum, `enum.rs:236-252`: the tag, then the fields. -/
def Variants.writes : (vs : Variants) → Mode → Loc → vs.El → WProg Unit
  | .nil, _, _, v => nomatch v
  | .cons tag _ fs vs, m, l, v =>
    match v with
    | .inl x => do
      WProg.writeEach (putVarint tag)
      fs.writes m l 0 x
    | .inr x => vs.writes m l x
end

/-- A log entry on its way out: `cache_size`, then `serialize_nested(None, false)`, as in `BufferLogger::bytes`
(`steit/src/log/loggers/buffer.rs:22-25`) and `WriterLogger::log` (`writer.rs:36-37`), but to any writer. -/
def Entry.send (m : Mode) (e : Entry) : WProg Unit := do
  let _ ← WProg.lift (logEntryTy.dict.cacheSize m [] e.toEl)
  serializeNestedW logEntryTy.dict logEntryTy.writes m [] e.toEl none false

/-- The loop of `BufferLogger::bytes` (`buffer.rs:22-25`) and of `Logger::log_multi` (`steit/src/log/logger.rs:8-14`) to any writer,
with `?` instead of `unwrap`: stops at the first error. `μ i` is what the size caches of entry `i` hold. -/
def sendLog {σ : Type} (S : Sink σ) (m : Mode) (μ : Nat → Prog.Mem) : Nat → List Entry → σ → Except OutErr Unit × σ
  | _, [], s => (.ok (), s)
  | i, e :: es, s =>
    match (e.send m).run S (μ i) s with
    | (.ok _, _, s) => sendLog S m μ (i + 1) es s
    | (.error err, _, s) => (.error err, s)

/-- `io::Write for Vec<u8>` (standard library): takes everything. (Used in `steit/src/ser.rs:91-95`.) -/
def vecSink : Sink Bytes where
  write bs s := (.ok bs.length, s ++ bs)

end Steit
