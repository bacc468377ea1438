import Verif.Spec.Ops

/-!
# Specification: the objects inside a state

`Part t v p s u put`: the value `v` of type `t` contains, at path `p`, the object `u` of type `s`; replacing it by `x` gives
`put x`. Fields marked `no_state` and everything below them are not objects in this sense.
-/

namespace Steit.Spec

/-- An object in a field of a message deriving `State`. -/
inductive FieldPart : (fs : Fields) → fs.El → U32 → (s : Ty) → s.El → (s.El → fs.El) → Prop
  | head {tag : U32} {attrs : FieldAttrs} {t : Ty} {fs : Fields} {v : (Fields.cons tag attrs t fs).El} :
      attrs.noState = false → FieldPart (.cons tag attrs t fs) v tag t v.1 (fun x => (x, v.2))
  | tail {tag tag' : U32} {attrs : FieldAttrs} {t : Ty} {fs : Fields} {v : (Fields.cons tag' attrs t fs).El} {s : Ty}
      {u : s.El} {put : s.El → fs.El} :
      FieldPart fs v.2 tag s u put → FieldPart (.cons tag' attrs t fs) v tag s u (fun x => (v.1, put x))

/-- An object in a field of the current variant. -/
inductive VariantPart : (vs : Variants) → vs.El → U32 → U32 → (s : Ty) → s.El → (s.El → vs.El) → Prop
  | here {vtag tag : U32} {cached : Bool} {fs : Fields} {vs : Variants} {v : fs.El} {s : Ty} {u : s.El} {put : s.El → fs.El} :
      FieldPart fs v tag s u put → VariantPart (.cons vtag cached fs vs) (.inl v) vtag tag s u (fun x => .inl (put x))
  | there {vtag vtag' tag : U32} {cached : Bool} {fs : Fields} {vs : Variants} {v : vs.El} {s : Ty} {u : s.El}
      {put : s.El → vs.El} :
      VariantPart vs v vtag tag s u put → VariantPart (.cons vtag' cached fs vs) (.inr v) vtag tag s u (fun x => .inr (put x))

/-- A direct child. The default variant of an enum has tag 0. -/
inductive Child : (t : Ty) → t.El → List U32 → (s : Ty) → s.El → (s.El → t.El) → Prop
  | item {t : Ty} {l : ListV t.El} {i : Nat} {x : t.El} : i < 2 ^ 32 → l.items[i]? = some x →
      Child (.list t) l [BitVec.ofNat 32 i] t x (fun y => { l with items := l.items.set i y })
  | value {kt : KeyTy} {t : Ty} {v : MapV t.El} {pre post : List (U32 × t.El)} {k : U32} {x : t.El} :
      v.entries = pre ++ (k, x) :: post → (∀ e ∈ pre, e.1 ≠ k) →
      Child (.map kt t) v [k] t x (fun y => { v with entries := pre ++ (k, y) :: post })
  | field {cached : Bool} {fs : Fields} {v : StructV fs.El} {tag : U32} {s : Ty} {u : s.El} {put : s.El → fs.El} :
      FieldPart fs v.fields tag s u put →
      Child (.struct true cached fs) v [tag] s u (fun x => { v with fields := put x })
  | variant {cached : Bool} {fs : Fields} {vs : Variants} {v : EnumV (fs.El ⊕ vs.El)} {vtag tag : U32} {s : Ty} {u : s.El}
      {put : s.El → fs.El ⊕ vs.El} :
      VariantPart (.cons 0#32 cached fs vs) v.val vtag tag s u put →
      Child (.enum true cached fs vs) v [vtag, tag] s u (fun x => { v with val := put x })

/-- See the head of the file. -/
inductive Part : (t : Ty) → t.El → List U32 → (s : Ty) → s.El → (s.El → t.El) → Prop
  | self {t : Ty} {v : t.El} : Part t v [] t v (fun x => x)
  | box {t : Ty} {v : t.El} {p : List U32} {s : Ty} {u : s.El} {put : s.El → t.El} :
      Part t v p s u put → Part (.box t) v p s u put
  | inside {t : Ty} {v : t.El} {p q : List U32} {c : Ty} {x : c.El} {put : c.El → t.El} {s : Ty} {u : s.El}
      {put' : s.El → c.El} :
      Child t v p c x put → Part c x q s u put' → Part t v (p ++ q) s u (fun y => put (put' y))

end Steit.Spec
