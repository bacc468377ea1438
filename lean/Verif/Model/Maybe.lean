import Verif.Model.Ops

/-! # `Maybe<T>` (`steit/src/types/maybe.rs`) -/

namespace Steit

/-- `Maybe<T>` as the derive macro sees it, `steit/src/types/maybe.rs:9-20`: `None` has tag 0 and no size cache, `Some` has
tag 1 and a field with tag 0. -/
def maybeTy (t : Ty) : Ty :=
  .enum true false .nil (.cons 1#32 true (.cons 0#32 {} t .nil) .nil)

/-- `Maybe::some`, `maybe.rs:23-29`: stores the runtime it is given. -/
def maybeSome {t : Ty} (runtime : Rt) (value : t.El) : (maybeTy t).El := ⟨runtime, .inr (.inl (value, ()))⟩

/-- `Maybe::none`, `maybe.rs:31-33`. -/
def maybeNone (t : Ty) (runtime : Rt) : (maybeTy t).El := ⟨runtime, .inl ()⟩

/-- `Maybe::from_option`, `maybe.rs:35-40`. -/
def maybeFromOption {t : Ty} (runtime : Rt) : Option t.El → (maybeTy t).El
  | some value => maybeSome runtime value
  | none => maybeNone t runtime

/-- `Maybe::is_some`, `maybe.rs:42-44`. -/
def maybeIsSome {t : Ty} (v : (maybeTy t).El) : Bool :=
  match v.val with
  | .inr _ => true
  | .inl _ => false

/-- `Maybe::is_none`, `maybe.rs:46-48`. -/
def maybeIsNone {t : Ty} (v : (maybeTy t).El) : Bool := !maybeIsSome v

/-- `Maybe::to_option`, `maybe.rs:51-58`. -/
def maybeToOption {t : Ty} (v : (maybeTy t).El) : Option t.El :=
  match v.val with
  | .inr (.inl (value, ())) => some value
  | .inl () => none

/-- `PartialEq<Option<T>> for Maybe<T>`, `maybe.rs:60-71`. -/
def maybeEqOption {t : Ty} (v : (maybeTy t).El) (other : Option t.El) : Bool :=
  match v.val with
  | .inr (.inl (value, ())) =>
    match other with
    | some otherValue => t.eq otherValue value
    | none => false
  | .inl () => other.isNone

/-- The generated setter `set_some_value`. (`steit/src/types/maybe.rs:11-19`, `steit-derive/src/derive/field.rs:247-338`.) -/
def maybeSetValue {t : Ty} (x : t.El) : (maybeTy t).Op := .inr (.inl (.inl (.set x)))

end Steit
