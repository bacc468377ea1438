import Verif.Model.Log

/-!
# Running code that logs

API calls that mutate a state run against a world holding the loggers that runtimes share.
-/

namespace Steit

/-- A `RuntimeLogger<BufferLogger>` behind an `Arc<Mutex<_>>` (`steit/src/rt/logger.rs:9,16-19`), as single-threaded code
sees it. Simplification: the pause count is a natural number instead of a `u32` (C27 in
`Verif/Props/Log.lean` is about the exact `u32` and shows that this
makes no difference before 2^32 pauses are outstanding); and the inner logger is a `BufferLogger`, which never fails. -/
structure LoggerSt where
  paused : Nat
  entries : List Entry

namespace LoggerSt

/-- `Logger::log` of `RuntimeLogger`, `steit/src/rt/logger.rs:31-39`. -/
def log (l : LoggerSt) (e : Entry) : LoggerSt :=
  if l.paused = 0 then { l with entries := l.entries ++ [e] } else l

/-- `PausableLogger::pause`, `steit/src/rt/logger.rs:42-45`. -/
def pause (l : LoggerSt) : LoggerSt := { l with paused := l.paused + 1 }

/-- `PausableLogger::unpause`, `steit/src/rt/logger.rs:47-53`. -/
def unpause (l : LoggerSt) : LoggerSt := if 0 < l.paused then { l with paused := l.paused - 1 } else l

end LoggerSt

/-- All loggers, by identity, and what the size caches will be found to contain by the successive serializations of values to
be logged. The theorems hold for all such contents.
(`steit/src/rt/logger.rs:9-54`, `steit/src/rt/runtime.rs:21-26`, `steit/src/rt/size_cache.rs:18-52`.) -/
structure World where
  loggers : Nat → LoggerSt
  caches : Nat → Prog.Mem

/-- Code that may log, pause, unpause and panic: it returns or panics (`ret`), or acquires the lock of a logger, looks at it,
acts on it, releases it and goes on (`act`), or finds size caches in some state (`mem`). Every `Runtime` method that uses the
logger holds the lock for one such action (`steit/src/rt/runtime.rs:113-127`), so this is also the granularity at which
threads sharing a logger interleave (`Verif/Model/Interleave.lean`). -/
inductive Exec (α : Type) : Type
  | ret (r : Except Err α)
  | act (id : Nat) (f : LoggerSt → LoggerSt) (k : LoggerSt → Exec α)
  | mem (k : Prog.Mem → Exec α)

namespace Exec

/-- Sequencing; a panic ends the execution. (As in `steit/src/types/list.rs:53-71`.) -/
def bind {α β : Type} (x : Exec α) (f : α → Exec β) : Exec β :=
  match x with
  | ret (.ok a) => f a
  | ret (.error e) => ret (.error e)
  | act id g k => act id g (fun l => (k l).bind f)
  | mem k => mem (fun μ => (k μ).bind f)

/-- Return a value. (As in `steit/src/types/list.rs:53-71`.) -/
def pure {α : Type} (a : α) : Exec α := ret (.ok a)

instance : Monad Exec where
  pure := pure
  bind := bind

/-- Lift a fallible computation. (As in `steit/src/types/list.rs:53-71`.) -/
def ofExcept {α : Type} (x : Except Err α) : Exec α := ret x

/-- Act on one logger while holding its lock. (`steit/src/rt/runtime.rs:109-127`.) -/
def onLogger (id : Nat) (f : LoggerSt → LoggerSt) : Exec Unit := act id f (fun _ => pure ())

end Exec

/-- The world after an action on one logger. (`steit/src/rt/runtime.rs:109-127`.) -/
def World.onLogger (w : World) (id : Nat) (f : LoggerSt → LoggerSt) : World :=
  { w with loggers := fun i => if i = id then f (w.loggers i) else w.loggers i }

/-- Run the code on a single thread. A panic leaves the world as it was at that moment.
(`steit/src/rt/logger.rs:9-54`, `steit/src/rt/runtime.rs:21-26`, `steit/src/rt/size_cache.rs:18-52`.) -/
def Exec.run {α : Type} : Exec α → World → Except Err α × World
  | ret r, w => (r, w)
  | act id f k, w => (k (w.loggers id)).run (w.onLogger id f)
  | mem k, w => (k (w.caches 0)).run { w with caches := fun n => w.caches (n + 1) }

instance {α : Type} : CoeFun (Exec α) (fun _ => World → Except Err α × World) := ⟨Exec.run⟩

/-- `Bytes::from_value`, `steit/src/types/bytes.rs:24-28`: `value.to_bytes()` with the size caches as they happen to be. -/
def toBytesNow {α : Type} (d : Dict α) (m : Mode) (v : α) : Exec Bytes :=
  .mem (fun μ => .ret (d.toBytesFrom m μ v))

namespace Rt

/-- `Runtime::pause_logger`, `steit/src/rt/runtime.rs:113-115`. -/
def pauseLogger (rt : Rt) : Exec Unit := Exec.onLogger rt.logger LoggerSt.pause

/-- `Runtime::unpause_logger`, `steit/src/rt/runtime.rs:117-119`. -/
def unpauseLogger (rt : Rt) : Exec Unit := Exec.onLogger rt.logger LoggerSt.unpause

/-- `Runtime::log`, `steit/src/rt/runtime.rs:121-123`. -/
def log (rt : Rt) (e : Entry) : Exec Unit := Exec.onLogger rt.logger (fun l => l.log e)

/-- `Runtime::log_multi`, `steit/src/rt/runtime.rs:125-127`. -/
def logMulti (rt : Rt) (es : List Entry) : Exec Unit := Exec.onLogger rt.logger (fun l => Steit.logMulti LoggerSt.log l es)

/-- `Runtime::log_update`, `steit/src/rt/runtime.rs:138` with `LogEntry::new_update`, `entry.rs:51-57`. -/
def logUpdate {α : Type} (rt : Rt) (d : Dict α) (m : Mode) (v : α) : Exec Unit := do
  let bytes ← toBytesNow d m v
  rt.log (.update rt.path bytes)

/-- `Runtime::log_update_child`, `steit/src/rt/runtime.rs:134-136,139-144`. -/
def logUpdateChild {α : Type} (rt : Rt) (d : Dict α) (m : Mode) (fieldNumber : U32) (v : α) : Exec Unit := do
  let bytes ← toBytesNow d m v
  rt.log (.update (rt.path ++ [fieldNumber]) bytes)

/-- `Runtime::log_list_push`, `steit/src/rt/runtime.rs:145` with `entry.rs:59-65`. -/
def logListPush {α : Type} (rt : Rt) (d : Dict α) (m : Mode) (item : α) : Exec Unit := do
  let bytes ← toBytesNow d m item
  rt.log (.listPush rt.path bytes)

/-- `Runtime::log_list_pop`, `steit/src/rt/runtime.rs:146` with `entry.rs:67-72`. -/
def logListPop (rt : Rt) : Exec Unit := rt.log (.listPop rt.path)

/-- `Runtime::log_map_remove`, `steit/src/rt/runtime.rs:147` with `entry.rs:74-80`. -/
def logMapRemove (rt : Rt) (key : U32) : Exec Unit := rt.log (.mapRemove rt.path key)

end Rt

end Steit
