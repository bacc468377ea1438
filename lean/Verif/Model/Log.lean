import Verif.Model.Ty

/-!
# Log entries and loggers (`steit/src/log`, `steit/src/rt/logger.rs`)
-/

namespace Steit

/-- `LogEntry`, `steit/src/log/entry.rs:21-48`, without its size caches. -/
inductive Entry
  | update (path : List U32) (value : Bytes)
  | listPush (path : List U32) (item : Bytes)
  | listPop (path : List U32)
  | mapRemove (path : List U32) (key : U32)
  deriving DecidableEq, Repr

/-- The declaration of `LogEntry` as the derive macro sees it, `steit/src/log/entry.rs:18-48`: tags, field tags and field
types. It derives `Serialize` and `Deserialize` only. -/
def logEntryTy : Ty :=
  .enum false true
    (.cons 0#32 {} (.vec (.uint .w32)) (.cons 1#32 {} .bytes .nil))
    (.cons 8#32 true (.cons 0#32 {} (.vec (.uint .w32)) (.cons 1#32 {} .bytes .nil))
    (.cons 9#32 true (.cons 0#32 {} (.vec (.uint .w32)) .nil)
    (.cons 12#32 true (.cons 0#32 {} (.vec (.uint .w32)) (.cons 1#32 {} (.uint .w32) .nil))
    .nil)))

namespace Entry

/-- The value of the derived enum that an entry is. (`steit/src/log/entry.rs:21-48`.) -/
def toEl : Entry → logEntryTy.El
  | update path value => ⟨Rt.dflt, .inl (path, value, ())⟩
  | listPush path item => ⟨Rt.dflt, .inr (.inl (path, item, ()))⟩
  | listPop path => ⟨Rt.dflt, .inr (.inr (.inl (path, ())))⟩
  | mapRemove path key => ⟨Rt.dflt, .inr (.inr (.inr (.inl (path, key, ()))))⟩

/-- The entry a value of the derived enum is. (`steit/src/log/entry.rs:21-48`.) -/
def ofEl (v : logEntryTy.El) : Entry :=
  match v.val with
  | .inl (path, value, ()) => update path value
  | .inr (.inl (path, item, ())) => listPush path item
  | .inr (.inr (.inl (path, ()))) => listPop path
  | .inr (.inr (.inr (.inl (path, key, ())))) => mapRemove path key

/-- `LogEntry::kind`, `steit/src/log/entry.rs:82-89`. -/
def kind : Entry → LogKind
  | update _ _ => .update
  | listPush _ _ => .listPush
  | listPop _ => .listPop
  | mapRemove _ _ => .mapRemove

/-- `unpack_log_entry`, `steit/src/state.rs:60-73`. -/
def unpack : Entry → LogKind × List U32 × Option U32 × Option Bytes
  | update path value => (.update, path, none, some value)
  | listPush path item => (.listPush, path, none, some item)
  | listPop path => (.listPop, path, none, none)
  | mapRemove path key => (.mapRemove, path, some key, none)

/-- What `BufferLogger::bytes` appends for one entry (`steit/src/log/loggers/buffer.rs:22-25`) and `WriterLogger::log` prints, as a
list of numbers after the entry (`writer.rs:35-40`; the text is not modelled): `cache_size`, then `serialize_nested(None, false)`; `μ` is what the entry's size caches held before. -/
def bytes (m : Mode) (μ : Prog.Mem) (e : Entry) : Except Err Bytes :=
  ((do
    let _ ← logEntryTy.dict.cacheSize m [] e.toEl
    (logEntryTy.dict.serializeNested m [] e.toEl none false).unwrap : Prog Bytes).run μ).1

end Entry

/-! ## Loggers -/

/-- `BufferLogger`, `steit/src/log/loggers/buffer.rs:8-11`. -/
structure BufferLogger where
  entries : List Entry
  deriving DecidableEq

namespace BufferLogger

/-- `BufferLogger::new`, `buffer.rs:14-16`. -/
def new : BufferLogger := ⟨[]⟩

/-- `Logger::log` for `BufferLogger`, `buffer.rs:45-48`. -/
def log (b : BufferLogger) (e : Entry) : BufferLogger := ⟨b.entries ++ [e]⟩

/-- The loop of `BufferLogger::bytes`, `buffer.rs:18-27`, from entry `i`; `μ i` is what the size caches of entry `i` hold. -/
def bytesFrom (m : Mode) (μ : Nat → Prog.Mem) : Nat → List Entry → Except Err Bytes
  | _, [] => .ok []
  | i, e :: es => do
    let a ← e.bytes m (μ i)
    let b ← bytesFrom m μ (i + 1) es
    .ok (a ++ b)

/-- `BufferLogger::bytes`, `buffer.rs:18-27`. -/
def bytes (m : Mode) (μ : Nat → Prog.Mem) (b : BufferLogger) : Except Err Bytes := bytesFrom m μ 0 b.entries

/-- `BufferLogger::clear`, `buffer.rs:29-31`. -/
def clear (_ : BufferLogger) : BufferLogger := ⟨[]⟩

/-- `BufferLogger::pluck`, `buffer.rs:33-35`. -/
def pluck (b : BufferLogger) : List Entry × BufferLogger := (b.entries, ⟨[]⟩)

/-- `BufferLogger::pluck_bytes`, `buffer.rs:37-41`. -/
def pluckBytes (m : Mode) (μ : Nat → Prog.Mem) (b : BufferLogger) : Except Err (Bytes × BufferLogger) := do
  let bytes ← b.bytes m μ
  .ok (bytes, b.clear)

end BufferLogger

/-- The default `Logger::log_multi`, `steit/src/log/logger.rs:8-14`, of a logger whose `log` cannot fail. -/
def logMulti {σ : Type} (log : σ → Entry → σ) : σ → List Entry → σ
  | s, [] => s
  | s, e :: es => logMulti log (log s e) es

/-- `RuntimeLogger<BufferLogger>`, `steit/src/rt/logger.rs:16-19`. -/
structure RuntimeLogger where
  inner : BufferLogger
  paused : U32
  deriving DecidableEq

namespace RuntimeLogger

/-- `RuntimeLogger::new`, `logger.rs:22-24`. -/
def new (inner : BufferLogger) : RuntimeLogger := ⟨inner, 0#32⟩

/-- `RuntimeLogger::replace`, `logger.rs:26-28`. -/
def replace (l : RuntimeLogger) (inner : BufferLogger) : RuntimeLogger := { l with inner }

/-- `Logger::log`, `logger.rs:31-39`. -/
def log (l : RuntimeLogger) (e : Entry) : RuntimeLogger :=
  if l.paused = 0#32 then { l with inner := l.inner.log e } else l

/-- `PausableLogger::pause`, `logger.rs:42-45`; `+= 1` on `u32` overflows after 2^32 - 1 pauses. -/
def pause (m : Mode) (l : RuntimeLogger) : Except Err (U32 × RuntimeLogger) :=
  if l.paused = 0xffffffff#32 then
    match m with
    | .debug => .error .panic
    | .release => .ok (0#32, { l with paused := 0#32 })
  else .ok (l.paused + 1#32, { l with paused := l.paused + 1#32 })

/-- `PausableLogger::unpause`, `logger.rs:47-53`. -/
def unpause (l : RuntimeLogger) : U32 × RuntimeLogger :=
  if l.paused = 0#32 then (l.paused, l) else (l.paused - 1#32, { l with paused := l.paused - 1#32 })

end RuntimeLogger

end Steit
