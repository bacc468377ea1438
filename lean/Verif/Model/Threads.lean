import Verif.Model.Prog

/-!
# Several threads on shared size caches

`SizeCache` is an `AtomicU32` accessed with `Ordering::Relaxed` (`steit/src/rt/size_cache.rs:37-51`), shared by
all threads that hold `&value`. Two semantics: interleaving of atomic accesses to one memory, and relaxed atomics, where a
load may return any store that is not older than what the thread has already observed of that cell.
-/

namespace Steit

/-! ## Interleaving -/

/-- Threads and the memory they share.
(Threads that serialize the same values and share the caches of `steit/src/rt/size_cache.rs:18-52`.) -/
structure Sys (α : Type) where
  mem : Prog.Mem
  threads : List (Prog α)

/-- One of the threads makes one step.
(Threads that serialize the same values and share the caches of `steit/src/rt/size_cache.rs:18-52`.) -/
inductive Sys.Step {α : Type} : Sys α → Sys α → Prop
  | mk {μ μ' : Prog.Mem} {ts : List (Prog α)} {i : Nat} {p p' : Prog α} :
    ts[i]? = some p → p.step μ = some (p', μ') → Sys.Step ⟨μ, ts⟩ ⟨μ', ts.set i p'⟩

/-- Any number of steps, of any threads in any order.
(Threads that serialize the same values and share the caches of `steit/src/rt/size_cache.rs:18-52`.) -/
inductive Sys.Steps {α : Type} : Sys α → Sys α → Prop
  | refl (s : Sys α) : Sys.Steps s s
  | tail {s t u : Sys α} : Sys.Steps s t → Sys.Step t u → Sys.Steps s u

/-! ## Relaxed atomics -/

/-- Stores to each cell by position in its modification order; position 0 is the initial content.
(The relaxed atomics of `steit/src/rt/size_cache.rs:30-52`.) -/
abbrev Hist := Loc → Nat → Option Nat

/-- A thread: its program and, for each cell, the position of the latest store it has observed or made.
(The relaxed atomics of `steit/src/rt/size_cache.rs:30-52`.) -/
structure RThread (α : Type) where
  prog : Prog α
  view : Loc → Nat

/-- Threads and the stores made so far. (The relaxed atomics of `steit/src/rt/size_cache.rs:30-52`.) -/
structure RSys (α : Type) where
  hist : Hist
  threads : List (RThread α)

/-- One step of a thread with relaxed atomics: a load returns any store at or after the thread's view of the cell; a store
takes any free position after the view. (The relaxed atomics of `steit/src/rt/size_cache.rs:30-52`.) -/
inductive RThread.Step {α : Type} : Hist → RThread α → Hist → RThread α → Prop
  | load {h : Hist} {l : Loc} {k : Nat → Prog α} {view : Loc → Nat} {j n : Nat} :
    view l ≤ j → h l j = some n →
    RThread.Step h ⟨.load l k, view⟩ h ⟨k n, fun x => if x = l then j else view x⟩
  | store {h : Hist} {l : Loc} {n : Nat} {k : Prog α} {view : Loc → Nat} {j : Nat} :
    view l < j → h l j = none →
    RThread.Step h ⟨.store l n k, view⟩ (fun x i => if x = l ∧ i = j then some n else h x i)
      ⟨k, fun x => if x = l then j else view x⟩

/-- One of the threads makes one step. (The relaxed atomics of `steit/src/rt/size_cache.rs:30-52`.) -/
inductive RSys.Step {α : Type} : RSys α → RSys α → Prop
  | mk {h h' : Hist} {ts : List (RThread α)} {i : Nat} {t t' : RThread α} :
    ts[i]? = some t → RThread.Step h t h' t' → RSys.Step ⟨h, ts⟩ ⟨h', ts.set i t'⟩

/-- The state before any thread has made a step: cells hold `μ`, nothing has been observed.
(The relaxed atomics of `steit/src/rt/size_cache.rs:30-52`.) -/
def RSys.start {α : Type} (μ : Prog.Mem) (ps : List (Prog α)) : RSys α :=
  ⟨fun l j => if j = 0 then some (μ l) else none, ps.map (fun p => ⟨p, fun _ => 0⟩)⟩

/-- Any number of steps, of any threads in any order. (The relaxed atomics of `steit/src/rt/size_cache.rs:30-52`.) -/
inductive RSys.Steps {α : Type} : RSys α → RSys α → Prop
  | refl (s : RSys α) : RSys.Steps s s
  | tail {s t u : RSys α} : RSys.Steps s t → RSys.Step t u → RSys.Steps s u

end Steit
