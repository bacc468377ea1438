/-!
# Basic notions shared by the whole model

Bytes, build modes, error kinds and the result of a decoding step.
-/

namespace Steit

/-- A byte of the wire format (`u8` in Rust). (As read in `steit/src/de/reader.rs:64-74`.) -/
abbrev Byte := BitVec 8

/-- `u32` in Rust: field numbers, variant tags, map keys, path components. (`steit/src/wire_fmt.rs:65-75`, `steit/src/rt/node.rs:3-6`.) -/
abbrev U32 := BitVec 32

/-- A finite in-memory byte source or sink: the bytes still to be read, or the bytes written.
Models `&[u8]`/`Vec<u8>` behind `io::Read`/`io::Write`; io errors other than end of input do not occur on them
(`Model/Reader.lean` and C62 are about other sources). (`steit/src/de/reader.rs:9-36`, `steit/src/ser.rs:91-95`.) -/
abbrev Bytes := List Byte

/-- Build mode of the Rust code: `debug` has overflow checks, `release` wraps (and masks shift amounts).
(Arithmetic where this matters: `steit/src/impls/varint.rs:21-69,94-124`, `steit/src/ser.rs:43-65`.) -/
inductive Mode
  | debug
  | release
  deriving DecidableEq, Repr

/-- The `io::ErrorKind`s the library produces, plus `panic` for an unwinding panic and `diverge` for a loop that would never end
(used when a fuel argument runs out; `Verif/Props/Robust.lean` shows it never happens). Messages are not kept.
(`steit/src/wire_fmt.rs:19-28,51-63`, `steit/src/impls/varint.rs:39-69`, `steit/src/impls/bool.rs:23-38`, `steit/src/impls/string.rs:34-36`.) -/
inductive Err
  | unexpectedEof
  | invalidData
  | invalidInput
  | panic
  | diverge
  deriving DecidableEq, Repr

/-- Result of a method `fn(&mut self, reader) -> io::Result<()>`: on success the new target and the unread bytes,
on failure the target as the failed call left it (Rust leaves partial updates visible) and the error.
(`steit/src/de/de.rs:7-39`, `steit/src/state.rs:11-58`.) -/
inductive Res (α : Type) where
  | ok (val : α) (rest : Bytes)
  | err (val : α) (e : Err)
  deriving Repr, DecidableEq

deriving instance DecidableEq for Except

namespace Res

/-- The target after the call, failed or not. (As seen by the caller of `steit/src/de/de.rs:8`.) -/
def target {α : Type} : Res α → α
  | ok v _ => v
  | err v _ => v

/-- Sequencing with Rust's `?`: continue only after success. (As in `steit/src/de/de.rs:16-29`.) -/
def bind {α β : Type} (r : Res α) (onErr : α → β) (k : α → Bytes → Res β) : Res β :=
  match r with
  | ok v rest => k v rest
  | err v e => err (onErr v) e

/-- Apply a function to the target (projection into an enclosing object). (As in `steit-derive/src/derive/field.rs:376-380`.) -/
def map {α β : Type} (f : α → β) : Res α → Res β
  | ok v rest => ok (f v) rest
  | err v e => err (f v) e

end Res

/-- Integer widths with an implementation in `steit/src/impls/varint.rs:71-74,126-129`. -/
inductive Width
  | w8
  | w16
  | w32
  | w64
  deriving DecidableEq, Repr

/-- Number of bits of a width. (`steit/src/impls/varint.rs:71-74,126-129`.) -/
def Width.bits : Width → Nat
  | .w8 => 8
  | .w16 => 16
  | .w32 => 32
  | .w64 => 64

end Steit
