import Verif.Model.Ops

/-!
# Several threads sharing loggers

Every use of a logger locks it (`Arc<Mutex<dyn PausableLogger>>`, `steit/src/rt/runtime.rs:22,113-127`) for one action. Threads
own the objects they call (`&mut`), so that loggers are all they share; the actions of different threads interleave in any
order. The size caches found by a thread can hold anything.
-/

namespace Steit

/-- A thread: what remains to be run.
(Threads that call into the library; they share the `Arc<Mutex<…>>` of `steit/src/rt/logger.rs:9`, `steit/src/rt/runtime.rs:109-127`.) -/
structure Thread where
  {α : Type}
  code : Exec α

/-- Threads and the loggers they share.
(Threads that call into the library; they share the `Arc<Mutex<…>>` of `steit/src/rt/logger.rs:9`, `steit/src/rt/runtime.rs:109-127`.) -/
structure Threads where
  loggers : Nat → LoggerSt
  threads : List Thread

/-- One action of one thread, holding the lock of a logger, or finding size caches.
(Threads that call into the library; they share the `Arc<Mutex<…>>` of `steit/src/rt/logger.rs:9`, `steit/src/rt/runtime.rs:109-127`.) -/
inductive Exec.Step {α : Type} : (Nat → LoggerSt) → Exec α → (Nat → LoggerSt) → Exec α → Prop
  | act {ls : Nat → LoggerSt} {id : Nat} {f : LoggerSt → LoggerSt} {k : LoggerSt → Exec α} :
    Exec.Step ls (.act id f k) (fun i => if i = id then f (ls i) else ls i) (k (ls id))
  | mem {ls : Nat → LoggerSt} {k : Prog.Mem → Exec α} (μ : Prog.Mem) : Exec.Step ls (.mem k) ls (k μ)

/-- One of the threads makes one step.
(Threads that call into the library; they share the `Arc<Mutex<…>>` of `steit/src/rt/logger.rs:9`, `steit/src/rt/runtime.rs:109-127`.) -/
inductive Threads.Step : Threads → Threads → Prop
  | mk {ls ls' : Nat → LoggerSt} {ts : List Thread} {i : Nat} {α : Type} {x x' : Exec α} :
    ts[i]? = some ⟨x⟩ → x.Step ls ls' x' → Threads.Step ⟨ls, ts⟩ ⟨ls', ts.set i ⟨x'⟩⟩

/-- Any number of steps, of any threads in any order.
(Threads that call into the library; they share the `Arc<Mutex<…>>` of `steit/src/rt/logger.rs:9`, `steit/src/rt/runtime.rs:109-127`.) -/
inductive Threads.Steps : Threads → Threads → Prop
  | refl (s : Threads) : Threads.Steps s s
  | head {s t u : Threads} : Threads.Step s t → Threads.Steps t u → Threads.Steps s u

/-- All threads have returned or panicked.
(Threads that call into the library; they share the `Arc<Mutex<…>>` of `steit/src/rt/logger.rs:9`, `steit/src/rt/runtime.rs:109-127`.) -/
def Threads.Done (s : Threads) : Prop := ∀ t ∈ s.threads, ∃ r, t.code = .ret r

end Steit
