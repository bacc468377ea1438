import Verif.Model.CSharpGen
import Verif.Model.Sink

/-!
# Writing generated sources to files

`Generator::generate`, `steit/src/gen/generator.rs:25-61`, with the settings of `steit/src/gen/setting.rs`. Opening a file may fail, and
so may writing to it; a `BufWriter` stands in between.

Files are known by their paths below `out_dir`: two different paths are two different files (no links, no case-insensitive file
systems, no `..` in names). Nothing else writes to the disk meanwhile.
-/

namespace Steit.Gen

/-- A text as `as_bytes` gives it. (`steit/src/gen/generator.rs:56`.) -/
def utf8 (t : Text) : Bytes := t.flatMap fun c => (String.utf8EncodeChar c).map UInt8.toBitVec

/-- The files of `out_dir`, by path. (`steit/src/gen/generator.rs:51-52`.) -/
abbrev Files := String → Option Bytes

/-- Replace a file. (`steit/src/gen/generator.rs:51-52`.) -/
def Files.set (fs : Files) (path : String) (bs : Bytes) : Files := fun p => if p = path then some bs else fs p

/-- How a disk behaves: whether a file can be created, and how many of the bytes offered are taken by a file, or that writing fails.
`ω` is whatever this depends on (room left, permissions, other programs). A file does not claim to have taken more than it was
offered; `ErrorKind::Interrupted` is left out (the standard library tries again then). (`steit/src/gen/generator.rs:51-52`.) -/
structure Disk (ω : Type) where
  create : String → Files → ω → Bool × ω
  write : String → Bytes → Files → ω → Option Nat × ω

/-- Files, and the rest of the world. (`steit/src/gen/generator.rs:51-52`.) -/
structure Store (ω : Type) where
  files : Files
  world : ω

variable {ω : Type}

/-- `File::create` (standard library): makes an empty file, or empties the one there is. `false` is an error.
(`steit/src/gen/generator.rs:51-52`.) -/
def Disk.createFile (D : Disk ω) (path : String) (s : Store ω) : Bool × Store ω :=
  match D.create path s.files s.world with
  | (true, w) => (true, ⟨s.files.set path [], w⟩)
  | (false, w) => (false, ⟨s.files, w⟩)

/-- An open file, written at its end: `<File as io::Write>::write` (standard library). (`steit/src/gen/generator.rs:51-52`.) -/
def Disk.file (D : Disk ω) (path : String) : Sink (Store ω) where
  write bs s :=
    match D.write path bs s.files s.world with
    | (some n, w) =>
      let n := min n bs.length
      (.ok n, ⟨s.files.set path ((s.files path).getD [] ++ bs.take n), w⟩)
    | (none, w) => (.error (), ⟨s.files, w⟩)

/-- A `BufWriter`'s buffer, and what is below. (Made at `steit/src/gen/generator.rs:54`.) -/
structure Buffered (σ : Type) where
  buf : Bytes
  inner : σ

/-- `BufWriter::flush_buf` (standard library): like `write_all` of the buffer; what was written leaves the buffer. Which part of it
is left after an error does not matter here (nothing is written afterwards). (Made at `steit/src/gen/generator.rs:54`.) -/
def flushBuf {σ : Type} (S : Sink σ) (b : Buffered σ) : Except OutErr Unit × Buffered σ :=
  match S.writeAll b.buf.length b.buf b.inner with
  | (r, s) => (r, ⟨[], s⟩)

/-- `<BufWriter as io::Write>::write` (standard library): what is too long for the buffer is passed on directly.
(Made at `steit/src/gen/generator.rs:54`.) -/
def bufWrite {σ : Type} (S : Sink σ) (capacity : Nat) : Sink (Buffered σ) where
  write bs b :=
    match (if b.buf.length + bs.length > capacity then flushBuf S b else (.ok (), b)) with
    | (.error _, b) => (.error (), b)
    | (.ok _, b) =>
      if bs.length ≥ capacity then
        match S.write bs b.inner with
        | (r, s) => (r, ⟨b.buf, s⟩)
      else (.ok bs.length, ⟨b.buf ++ bs, b.inner⟩)

/-- `<BufWriter as io::Write>::write_all` (standard library). In older versions of Rust this was `write_all` over `write`, so that the
end of a long text could still get into the buffer; in newer ones (`whole`) a long text is passed on as a whole.
(`steit/src/gen/generator.rs:56`.) -/
def bufWriteAll {σ : Type} (whole : Bool) (capacity : Nat) (S : Sink σ) (bs : Bytes) (b : Buffered σ) :
    Except OutErr Unit × Buffered σ :=
  if whole then
    match (if b.buf.length + bs.length > capacity then flushBuf S b else (.ok (), b)) with
    | (.error e, b) => (.error e, b)
    | (.ok _, b) =>
      if bs.length ≥ capacity then
        match S.writeAll bs.length bs b.inner with
        | (r, s) => (r, ⟨b.buf, s⟩)
      else (.ok (), ⟨b.buf ++ bs, b.inner⟩)
  else (bufWrite S capacity).writeAll bs.length bs b

/-- `Drop for BufWriter` (standard library): the buffer is written, and errors are ignored.
(At the end of the loop body, `steit/src/gen/generator.rs:54-58`.) -/
def dropBuf {σ : Type} (S : Sink σ) (b : Buffered σ) : σ := (flushBuf S b).2.inner

/-- `let mut writer = io::BufWriter::new(file); writer.write_all(source.as_bytes())?;` and the end of the scope,
`steit/src/gen/generator.rs:54-57`. `true` when `write_all` succeeded. -/
def writeSource (D : Disk ω) (whole : Bool) (capacity : Nat) (path : String) (bs : Bytes) (s : Store ω) : Bool × Store ω :=
  match bufWriteAll whole capacity (D.file path) bs ⟨[], s⟩ with
  | (.ok _, b) => (true, dropBuf (D.file path) b)
  | (.error _, b) => (false, dropBuf (D.file path) b)

/-- `Setting`, `steit/src/gen/setting.rs:5-11`, but for the directory and `get_name` (in `collectMeta`). The rest says which standard
library is below: `capacity` is 8192. -/
structure GenSetting where
  skipBuiltins : Bool
  skipNames : List String
  whole : Bool
  capacity : Nat

/-- How `generate` ends: `Ok` with the names, `Err`, or a panic (in `gen_struct` or `gen_enum`). (`steit/src/gen/generator.rs:25-61`.) -/
inductive GenEnd
  | done (names : List String)
  | failed
  | panicked
  deriving DecidableEq

/-- The path of the file of a message, `steit/src/gen/generator.rs:51`. -/
def pathOf (name : String) : String := name ++ ".cs"

/-- The loop of `generate`, `steit/src/gen/generator.rs:28-60`, over what has been collected, in whatever order the `HashMap` gives it;
`names` are the `generated_names` so far. `src` gives the source of a message, or panics (`source`). -/
def generate (D : Disk ω) (setting : GenSetting) (src : MessageMeta → Option Text) :
    List (String × MessageMeta) → List String → Store ω → GenEnd × Store ω
  | [], names, s => (.done names, s)
  | (name, m) :: es, names, s =>
    if m.isBuiltin && setting.skipBuiltins then generate D setting src es names s
    else if name ∈ setting.skipNames then generate D setting src es names s
    else
      match src m with
      | none => (.panicked, s)
      | some text =>
        match D.createFile (pathOf name) s with
        | (false, s) => (.failed, s)
        | (true, s) =>
          match writeSource D setting.whole setting.capacity (pathOf name) (utf8 text) s with
          | (false, s) => (.failed, s)
          | (true, s) => generate D setting src es (names ++ [name]) s

end Steit.Gen
