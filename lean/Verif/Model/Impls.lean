import Verif.Model.Dict
import Verif.Model.Utf8

/-! # The trait implementations of `steit/src/impls` and of `steit/src/types/bytes.rs` -/

namespace Steit

/-! ## Integers and bools -/

/-- `impl_serialize_primitive!` and `impl_state_primitive!`, `steit/src/impls/macros.rs:1-92`, over the per-type
`compute_size`, `serialize` and reading functions. Every method is overridden there so that no cache is used. -/
def primDict {α : Type} [DecidableEq α] (size : α → Nat) (put : α → Bytes)
    (get : Mode → Bytes → Except Err (α × Bytes)) (dflt : α) : Dict α :=
  let merge := fun (m : Mode) (v : α) (bs : Bytes) =>
    match get m bs with
    | .ok (v', rest) => Res.ok v' rest
    | .error e => Res.err v e
  { wire := .varint
    hasCache := fun _ => false
    computeSize := fun _ _ v => pure (size v)
    serializeCached := fun _ _ v => pure (put v)
    isOmissible := fun _ _ v _ => pure (decide (v = dflt))
    dflt := dflt
    merge := merge
    withRuntime := fun _ => dflt
    runtime := fun _ => none
    setRuntime := fun _ v => v
    isRoot := fun _ => .error .panic
    -- `*self = deserialize(reader)?`, macros.rs:53-59: reading starts from the default, failure leaves the target alone
    handleUpdate := merge
    handle := fun m v path kind _ bs =>
      if path = [] then
        if kind = .update then merge m v bs else .err v .invalidData
      else .err v .invalidData }

/-- `u8`..`u64`, `steit/src/impls/varint.rs:21-74`. -/
def uintDict (w : Width) : Dict (BitVec w.bits) :=
  primDict (uintSize w) putVarint (fun m => getVarint m w.bits) 0#w.bits

/-- `i8`..`i64`, `steit/src/impls/varint.rs:76-129`. -/
def sintDict (w : Width) : Dict (BitVec w.bits) :=
  primDict (sintSize w) putSigned (fun m => getSigned m w.bits) 0#w.bits

/-- `bool`, `steit/src/impls/bool.rs:9-40`. -/
def boolDict : Dict Bool :=
  primDict (fun _ => 1) putBool (fun _ => getBool) false

/-! ## Types that do not implement `State` -/

/-- Complete a `Serialize + Deserialize` implementation to a dictionary with unused `State` entries.
(Types that do not implement `State`, such as `steit/src/impls/option.rs:11-49`, `steit/src/impls/vec.rs:11-48`, `steit/src/impls/hash_map.rs:10-50`.) -/
def plainDict {α : Type} (ser : SerD α) (isOmissible : Mode → Loc → α → Option Nat → Prog Bool) (dflt : α)
    (merge : Mode → α → Bytes → Res α) : Dict α :=
  { ser with
    wire := .sized
    isOmissible := isOmissible
    dflt := dflt
    merge := merge
    withRuntime := fun _ => dflt
    runtime := fun _ => none
    setRuntime := fun _ v => v
    isRoot := fun _ => .error .panic
    handleUpdate := fun _ v _ => .err v .panic
    handle := fun _ v _ _ _ _ => .err v .panic }

/-- `String`, `steit/src/impls/string.rs:9-36`. `len as u32` truncates. -/
def stringDict : Dict Str :=
  plainDict
    { hasCache := fun _ => false
      computeSize := fun _ _ s => pure (s.bytes.length % 2 ^ 32)
      serializeCached := fun _ _ s => pure s.bytes }
    (fun _ _ s _ => pure s.bytes.isEmpty)
    ⟨[], rfl⟩
    (fun _ s bs => if h : utf8Valid bs = true then .ok ⟨bs, h⟩ [] else .err s .invalidData)

/-- `Bytes`, `steit/src/types/bytes.rs:41-64`; `merge` appends to what is already there. -/
def bytesDict : Dict Bytes :=
  let ser : SerD Bytes :=
    { hasCache := fun _ => false
      computeSize := fun _ _ s => pure (s.length % 2 ^ 32)
      serializeCached := fun _ _ s => pure s }
  plainDict ser ser.isOmissibleBySize [] (fun _ s bs => .ok (s ++ bs) [])

/-- The loop of `Vec::compute_size`, `steit/src/impls/vec.rs:19-21`: item `i` and running total. -/
def sizeItems {α : Type} (d : Dict α) (m : Mode) (l : Loc) : Nat → Nat → List α → Prog Nat
  | _, size, [] => pure size
  | i, size, x :: xs => do
    let n ← (d.computeSizeNested m (l ++ [i]) x none false).unwrap
    let size ← Prog.addU32 m size n
    sizeItems d m l (i + 1) size xs

/-- The loop of `Vec::serialize_cached`, `steit/src/impls/vec.rs:27-29`. -/
def serializeItems {α : Type} (d : Dict α) (m : Mode) (l : Loc) : Nat → List α → Prog Bytes
  | _, [] => pure []
  | i, x :: xs => do
    let a ← d.serializeNested m (l ++ [i]) x none false
    let b ← serializeItems d m l (i + 1) xs
    pure (a ++ b)

/-- `Serialize for Vec<T>`, `steit/src/impls/vec.rs:15-37`. -/
def vecSer {α : Type} (d : Dict α) : SerD (List α) :=
  { hasCache := fun _ => false
    computeSize := fun m l xs => sizeItems d m l 0 0 xs
    serializeCached := fun m l xs => serializeItems d m l 0 xs }

/-- One round of `Vec::merge`, `steit/src/impls/vec.rs:42-43`. -/
def vecStep {α : Type} (d : Dict α) (m : Mode) (xs : List α) (bs : Bytes) : Res (List α) :=
  match d.deserializeNested m d.wire bs with
  | .ok (x, rest) => .ok (xs ++ [x]) rest
  | .error e => .err xs e

/-- `Vec<T>`, `steit/src/impls/vec.rs:11-48`. -/
def vecDict {α : Type} (d : Dict α) : Dict (List α) :=
  plainDict (vecSer d) (vecSer d).isOmissibleBySize [] (fun m xs bs => untilEof (vecStep d m) bs.length xs bs)

/-- `[T; n]` as the list of its items. (`steit/src/impls/array.rs:13-57`.) -/
abbrev ArrayV (α : Type) (n : Nat) := { xs : List α // xs.length = n }

/-- The loop of `[T; n]::merge`, `steit/src/impls/array.rs:43-49`, from `index`; `done` are the items before `index`
and `todo` those from `index` on. Returns when `index = n` or at the end of the input. -/
def arrayLoop {α : Type} (d : Dict α) (m : Mode) : (done : List α) → (todo : List α) → Bytes →
    Res { xs : List α // xs.length = done.length + todo.length }
  | done, [], bs => .ok ⟨done, by simp⟩ bs
  | done, t :: todo, [] => .ok ⟨done ++ t :: todo, by simp⟩ []
  | done, t :: todo, b :: bs =>
    match d.deserializeNested m d.wire (b :: bs) with
    | .error e => .err ⟨done ++ t :: todo, by simp⟩ e
    | .ok (x, rest) =>
      (arrayLoop d m (done ++ [x]) todo rest).map
        (fun xs => ⟨xs.1, by have := xs.2; simp at this ⊢; omega⟩)

/-- `[T; n]`, `steit/src/impls/array.rs:11-56`. The macro is instantiated for `n` in 1..7 (lines 76-82); `Default` is the
standard library's, element-wise. After the loop the rest of the input is read and dropped (lines 51-52). -/
def arrayDict {α : Type} (n : Nat) (d : Dict α) : Dict (ArrayV α n) :=
  let ser : SerD (ArrayV α n) :=
    { hasCache := fun _ => false
      computeSize := fun m l xs => sizeItems d m l 0 0 xs.1
      serializeCached := fun m l xs => serializeItems d m l 0 xs.1 }
  plainDict ser ser.isOmissibleBySize ⟨List.replicate n d.dflt, by simp⟩
    (fun m xs bs =>
      match (arrayLoop d m [] xs.1 bs).map (fun ys => (⟨ys.1, by have := ys.2; have := xs.2; simp_all⟩ : ArrayV α n)) with
      | .ok ys _ => .ok ys []
      | .err ys e => .err ys e)

/-- `Option<T>::merge`, one round, `steit/src/impls/option.rs:38-44`. -/
def optionStep {α : Type} (d : Dict α) (m : Mode) (o : Option α) (bs : Bytes) : Res (Option α) :=
  (d.mergeNested m (o.getD d.dflt) d.wire bs).map some

/-- `Option<T>`, `steit/src/impls/option.rs:11-49`. -/
def optionDict {α : Type} (d : Dict α) : Dict (Option α) :=
  let ser : SerD (Option α) :=
    { hasCache := fun _ => false
      computeSize := fun m l o =>
        match o with
        | some x => (d.computeSizeNested m (l ++ [0]) x none false).unwrap
        | none => pure 0
      serializeCached := fun m l o =>
        match o with
        | some x => d.serializeNested m (l ++ [0]) x none false
        | none => pure [] }
  plainDict ser ser.isOmissibleBySize none (fun m o bs => untilEof (optionStep d m) bs.length o bs)

/-- `Box<T>`, `steit/src/impls/box.rs:13-59`; a box is represented by its content. `is_omissible`, `handle_update` and
`is_root` are not forwarded: the trait defaults apply. -/
def boxDict {α : Type} (d : Dict α) : Dict α :=
  { d with
    isOmissible := d.toSerD.isOmissibleBySize
    isRoot := isRootDefault d.runtime
    handleUpdate := handleUpdateDefault d.runtime d.withRuntime d.merge }

/-! ## Tuples -/

/-- Methods of a tuple's components, by recursion over the components. (`steit/src/impls/tuple.rs:14-49`.) -/
structure TupleD (α : Type) where
  sizes : Mode → Loc → Nat → Nat → α → Prog Nat
  serialize : Mode → Loc → Nat → α → Prog Bytes
  dflt : α
  /-- `let A = A::deserialize_nested(..)?; …`, `steit/src/impls/tuple.rs:39`. -/
  read : Mode → Bytes → Except Err (α × Bytes)

/-- No components left. (`steit/src/impls/tuple.rs:14-49`.) -/
def tupleNil : TupleD Unit :=
  { sizes := fun _ _ _ size _ => pure size
    serialize := fun _ _ _ _ => pure []
    dflt := ()
    read := fun _ bs => .ok ((), bs) }

/-- A component and the remaining ones, `steit/src/impls/tuple.rs:22,28,39`. -/
def tupleCons {α β : Type} (d : Dict α) (t : TupleD β) : TupleD (α × β) :=
  { sizes := fun m l i size v => do
      let n ← (d.computeSizeNested m (l ++ [i]) v.1 none false).unwrap
      let size ← Prog.addU32 m size n
      t.sizes m l (i + 1) size v.2
    serialize := fun m l i v => do
      let a ← d.serializeNested m (l ++ [i]) v.1 none false
      let b ← t.serialize m l (i + 1) v.2
      pure (a ++ b)
    dflt := (d.dflt, t.dflt)
    read := fun m bs =>
      match d.deserializeNested m d.wire bs with
      | .error e => .error e
      | .ok (x, rest) =>
        match t.read m rest with
        | .error e => .error e
        | .ok (y, rest) => .ok ((x, y), rest) }

/-- Tuples, `steit/src/impls/tuple.rs:14-48` (instantiated for 2 to 7 components, lines 51-56). All components are read
before the target is overwritten; the rest of the input is read and dropped. -/
def tupleDict {α : Type} (t : TupleD α) : Dict α :=
  let ser : SerD α :=
    { hasCache := fun _ => false
      computeSize := fun m l v => t.sizes m l 0 0 v
      serializeCached := fun m l v => t.serialize m l 0 v }
  plainDict ser ser.isOmissibleBySize t.dflt
    (fun m v bs =>
      match t.read m bs with
      | .error e => .err v e
      | .ok (v', _) => .ok v' [])

/-! ## Hash maps -/

/-- `HashMap::insert` (standard library) on the list of entries in iteration order: an equal key keeps its place and its
old key object. The standard library does not specify the iteration order; here a new entry comes last.
(As used in `steit/src/impls/hash_map.rs:41-49`.) -/
def hashInsert {κ ν : Type} (eq : κ → κ → Bool) (k : κ) (v : ν) : List (κ × ν) → List (κ × ν)
  | [] => [(k, v)]
  | (k', v') :: es => if eq k' k then (k', v) :: es else (k', v') :: hashInsert eq k v es

/-- The loop of `HashMap::compute_size`, `steit/src/impls/hash_map.rs:18-21`; entry `i` owns positions `2i`, `2i+1`. -/
def sizeEntries {κ ν : Type} (dk : Dict κ) (dv : Dict ν) (m : Mode) (l : Loc) : Nat → Nat → List (κ × ν) → Prog Nat
  | _, size, [] => pure size
  | i, size, (k, v) :: es => do
    let n ← (dk.computeSizeNested m (l ++ [2 * i]) k none false).unwrap
    let size ← Prog.addU32 m size n
    let n ← (dv.computeSizeNested m (l ++ [2 * i + 1]) v none false).unwrap
    let size ← Prog.addU32 m size n
    sizeEntries dk dv m l (i + 1) size es

/-- The loop of `HashMap::serialize_cached`, `steit/src/impls/hash_map.rs:27-30`. -/
def serializeEntries {κ ν : Type} (dk : Dict κ) (dv : Dict ν) (m : Mode) (l : Loc) : Nat → List (κ × ν) → Prog Bytes
  | _, [] => pure []
  | i, (k, v) :: es => do
    let a ← dk.serializeNested m (l ++ [2 * i]) k none false
    let b ← dv.serializeNested m (l ++ [2 * i + 1]) v none false
    let c ← serializeEntries dk dv m l (i + 1) es
    pure (a ++ b ++ c)

/-- One round of `HashMap::merge`, `steit/src/impls/hash_map.rs:43-45`. -/
def hashMapStep {κ ν : Type} (eq : κ → κ → Bool) (dk : Dict κ) (dv : Dict ν) (m : Mode) (es : List (κ × ν))
    (bs : Bytes) : Res (List (κ × ν)) :=
  match dk.deserializeNested m dk.wire bs with
  | .error e => .err es e
  | .ok (k, rest) =>
    match dv.deserializeNested m dv.wire rest with
    | .error e => .err es e
    | .ok (v, rest) => .ok (hashInsert eq k v es) rest

/-- `HashMap<K, V>`, `steit/src/impls/hash_map.rs:10-50`; `eq` is the key type's `PartialEq`. -/
def hashMapDict {κ ν : Type} (eq : κ → κ → Bool) (dk : Dict κ) (dv : Dict ν) : Dict (List (κ × ν)) :=
  let ser : SerD (List (κ × ν)) :=
    { hasCache := fun _ => false
      computeSize := fun m l es => sizeEntries dk dv m l 0 0 es
      serializeCached := fun m l es => serializeEntries dk dv m l 0 es }
  plainDict ser ser.isOmissibleBySize [] (fun m es bs => untilEof (hashMapStep eq dk dv m) bs.length es bs)

end Steit
