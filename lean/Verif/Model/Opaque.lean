import Verif.Model.Impls

/-!
# `Bytes` made from values, and `&str`

The constructors of `Bytes` (`steit/src/types/bytes.rs`) and the implementation of `Serialize` for `&str`
(`steit/src/impls/str.rs`).
-/

namespace Steit

/-- `Bytes::from_raw`, `steit/src/types/bytes.rs:20-22`. -/
def bytesFromRaw (bytes : Bytes) : Bytes := bytes

/-- `Bytes::into_raw`, `steit/src/types/bytes.rs:30-32`. -/
def bytesIntoRaw (value : Bytes) : Bytes := value

/-- `Bytes::from_value`, `steit/src/types/bytes.rs:24-28`: `steit_serialize` into a fresh vector, `unwrap`. -/
def bytesFromValue {α : Type} (d : Dict α) (m : Mode) (value : α) : Prog Bytes :=
  (d.steitSerialize m [] value).unwrap

/-- What a call of `Bytes::from_value` (`steit/src/types/bytes.rs:24-28`) returns when the size caches hold `μ` before it. -/
def bytesFromValueNow {α : Type} (d : Dict α) (m : Mode) (μ : Prog.Mem) (value : α) : Except Err Bytes :=
  ((bytesFromValue d m value).run μ).1

/-- `&str`, `steit/src/impls/str.rs:8-20` with `impl_serialize_primitive!` (`macros.rs:1-37`). Only `Serialize` is implemented
for `&str`; what is not is here as for `String`, and no theorem about `&str` uses it. -/
def strDict : Dict Str :=
  plainDict
    { hasCache := fun _ => false
      computeSize := fun _ _ s => pure (s.bytes.length % 2 ^ 32)
      serializeCached := fun _ _ s => pure s.bytes }
    (fun _ _ s _ => pure (decide (s = ⟨[], rfl⟩)))
    ⟨[], rfl⟩
    (fun _ s bs => if h : utf8Valid bs = true then .ok ⟨bs, h⟩ [] else .err s .invalidData)

end Steit
