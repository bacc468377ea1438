import Verif.Spec.Compact
import Verif.Model.CSharp

/-!
# Specification: the places of objects inside a client's state

`Place t p ns s put`: objects of type `t` that differ in nothing but the object of type `s` at path `p`; `put x` is the one with `x`
there. `ns` lists the paths of the enums around the object.
-/

namespace Steit.Spec

/-- A field of a message. -/
inductive FieldPlace : (fs : Fields) → U32 → (s : Ty) → (s.Cs → fs.Cs) → Prop
  | head {tag : U32} {attrs : FieldAttrs} {t : Ty} {fs : Fields} {rest : fs.Cs} :
      FieldPlace (.cons tag attrs t fs) tag t (fun x => (x, rest))
  | tail {tag tag' : U32} {attrs : FieldAttrs} {t : Ty} {fs : Fields} {first : t.Cs} {s : Ty} {put : s.Cs → fs.Cs} :
      tag ≠ tag' → FieldPlace fs tag s put → FieldPlace (.cons tag' attrs t fs) tag s (fun x => (first, put x))

/-- A field of the current variant. -/
inductive VariantPlace : (vs : Variants) → U32 → U32 → (s : Ty) → (s.Cs → vs.Cs) → Prop
  | here {vtag tag : U32} {cached : Bool} {fs : Fields} {vs : Variants} {s : Ty} {put : s.Cs → fs.Cs} :
      FieldPlace fs tag s put → VariantPlace (.cons vtag cached fs vs) vtag tag s (fun x => .inl (put x))
  | there {vtag vtag' tag : U32} {cached : Bool} {fs : Fields} {vs : Variants} {s : Ty} {put : s.Cs → vs.Cs} :
      VariantPlace vs vtag tag s put → VariantPlace (.cons vtag' cached fs vs) vtag tag s (fun x => .inr (put x))

/-- A direct child. The default variant of an enum has tag 0. -/
inductive ChildPlace : (t : Ty) → List U32 → List (List U32) → (s : Ty) → (s.Cs → t.Cs) → Prop
  | item {t : Ty} {pre post : List t.Cs} : pre.length < 2 ^ 32 →
      ChildPlace (.list t) [BitVec.ofNat 32 pre.length] [] t (fun x => pre ++ x :: post)
  | value {kt : KeyTy} {t : Ty} {pre post : List (U32 × t.Cs)} {k : U32} : (∀ e ∈ pre, e.1 ≠ k) →
      ChildPlace (.map kt t) [k] [] t (fun x => pre ++ (k, x) :: post)
  | field {reg cached : Bool} {fs : Fields} {tag : U32} {s : Ty} {put : s.Cs → fs.Cs} :
      FieldPlace fs tag s put → ChildPlace (.struct reg cached fs) [tag] [] s put
  | variant {reg cached : Bool} {fs : Fields} {vs : Variants} {vtag tag : U32} {s : Ty} {put : s.Cs → fs.Cs ⊕ vs.Cs} :
      VariantPlace (.cons 0#32 cached fs vs) vtag tag s put → ChildPlace (.enum reg cached fs vs) [vtag, tag] [[]] s put

/-- See the head of the file. -/
inductive Place : (t : Ty) → List U32 → List (List U32) → (s : Ty) → (s.Cs → t.Cs) → Prop
  | self {t : Ty} : Place t [] [] t (fun x => x)
  | box {t : Ty} {p : List U32} {ns : List (List U32)} {s : Ty} {put : s.Cs → t.Cs} : Place t p ns s put → Place (.box t) p ns s put
  | inside {t : Ty} {p q : List U32} {ns ns' : List (List U32)} {c s : Ty} {put : c.Cs → t.Cs} {put' : s.Cs → c.Cs} :
      ChildPlace t p ns c put → Place c q ns' s put' → Place t (p ++ q) (ns ++ ns'.map (p ++ ·)) s (fun x => put (put' x))

/-- The entry is not an update addressed to a variant of one of the enums (a client takes it for a change of the variant, a Rust
replica refuses it; none is ever logged). -/
def NoVariant (ns : List (List U32)) : Entry → Prop
  | .update q _ => ∀ n ∈ ns, ∀ k, q ≠ n ++ [k]
  | _ => True

end Steit.Spec
