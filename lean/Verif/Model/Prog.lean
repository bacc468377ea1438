import Verif.Model.Basic

/-!
# Programs over size caches (`steit/src/rt/size_cache.rs`)

`compute_size` and `serialize_cached` take `&self` and touch memory only through the `SizeCache` cells
(`AtomicU32` with `get`/`set`, `size_cache.rs:37-51`). They are modelled as programs whose atomic steps are one load or
one store of a cell.
-/

namespace Steit

/-- Address of a cache cell: the position, inside the value being serialized, of the object owning the cell
(child indices from the outermost object). Distinct objects own distinct cells. (The caches of `steit/src/rt/size_cache.rs:18-20`.) -/
abbrev Loc := List Nat

/-- A program returning `α`. `fail` is an `io::Error` or a panic. Cells hold a `u32`, represented by a `Nat`.
(`steit/src/rt/size_cache.rs:37-51`, `steit/src/ser.rs:14-29`.) -/
inductive Prog (α : Type) where
  | pure (a : α)
  | fail (e : Err)
  | load (l : Loc) (k : Nat → Prog α)
  | store (l : Loc) (n : Nat) (k : Prog α)

namespace Prog

/-- Sequential composition (and Rust's `?`). (As in `steit/src/ser.rs:31-34`.) -/
def bind {α β : Type} : Prog α → (α → Prog β) → Prog β
  | pure a, f => f a
  | fail e, _ => fail e
  | load l k, f => load l (fun n => bind (k n) f)
  | store l n k, f => store l n (bind k f)

instance : Monad Prog where
  pure := pure
  bind := bind

/-- `SizeCache::get`, `steit/src/rt/size_cache.rs:37-39`. -/
def get (l : Loc) : Prog Nat := load l pure

/-- `SizeCache::set`, `steit/src/rt/size_cache.rs:49-51`. -/
def set (l : Loc) (n : Nat) : Prog Unit := store l n (pure ())

/-- `Result::unwrap`: an error becomes a panic. (As in `steit/src/ser.rs:43-65,91-95`.) -/
def unwrap {α : Type} : Prog α → Prog α
  | pure a => pure a
  | fail _ => fail .panic
  | load l k => load l (fun n => unwrap (k n))
  | store l n k => store l n (unwrap k)

/-- Lift a pure fallible computation. (As in `steit/src/ser.rs:31-34`.) -/
def ofExcept {α : Type} : Except Err α → Prog α
  | .ok a => pure a
  | .error e => fail e

/-- `a + b` on `u32`: overflow panics in debug builds and wraps in release builds.
(As in `steit/src/ser.rs:43-65`, `steit-derive/src/derive/field.rs:364-368`.) -/
def addU32 (m : Mode) (a b : Nat) : Prog Nat :=
  if a + b < 2 ^ 32 then pure (a + b)
  else match m with
    | .debug => fail .panic
    | .release => pure ((a + b) % 2 ^ 32)

/-- Memory: the contents of all cache cells. (The caches of `steit/src/rt/size_cache.rs:18-20`.) -/
abbrev Mem := Loc → Nat

/-- Run a program alone, starting from the given (possibly stale) cache contents.
(`steit/src/rt/size_cache.rs:37-51`, `steit/src/ser.rs:14-29`.) -/
def run {α : Type} : Prog α → Mem → Except Err α × Mem
  | pure a, μ => (.ok a, μ)
  | fail e, μ => (.error e, μ)
  | load l k, μ => run (k (μ l)) μ
  | store l n k, μ => run k (fun l' => if l' = l then n else μ l')

/-- One atomic step of a program on a shared memory; `none` when it has finished or failed.
(`steit/src/rt/size_cache.rs:37-51`, `steit/src/ser.rs:14-29`.) -/
def step {α : Type} : Prog α → Mem → Option (Prog α × Mem)
  | pure _, _ => none
  | fail _, _ => none
  | load l k, μ => some (k (μ l), μ)
  | store l n k, μ => some (k, fun l' => if l' = l then n else μ l')

end Prog

end Steit
