import Verif.Lemmas.Equal
import Verif.Props.Setters

/-!
# Comparing and hashing values: property C42

`Spec.Equal` (`Verif/Spec/Equal.lean`) says what equal values are; `Keyed` values are those in which hash maps and maps
have distinct keys, as the standard library and indexmap ensure.
-/

namespace Steit
open Spec

/-- C42: `==` decides equality of the data: item by item, maps in whatever order, everything but the fields marked
`no_eq_hash`, and regardless of runtimes. -/
theorem C42_eq_decides_equality (t : Ty) (a b : t.El) (ha : Keyed t a) (hb : Keyed t b) :
    t.eq a b = true ↔ Equal t a b := eq_iff t a b ha hb

/-- C42: `==` is an equivalence relation. -/
theorem C42_equivalence (t : Ty) :
    (∀ a, Keyed t a → t.eq a a = true) ∧
    (∀ a b, Keyed t a → Keyed t b → t.eq a b = true → t.eq b a = true) ∧
    (∀ a b c, Keyed t a → Keyed t b → Keyed t c → t.eq a b = true → t.eq b c = true → t.eq a c = true) := by
  refine ⟨fun a ha => (eq_iff t a a ha ha).2 (equal_refl t a), fun a b ha hb h => ?_, fun a b c ha hb hc h h' => ?_⟩
  · exact (eq_iff t b a hb ha).2 (equal_symm t _ _ ((eq_iff t a b ha hb).1 h))
  · exact (eq_iff t a c ha hc).2 (equal_trans t _ _ _ ((eq_iff t a b ha hb).1 h) ((eq_iff t b c hb hc).1 h'))

/-- C42: runtimes, wherever in the value, influence neither comparison nor hashing (size caches are not part of the values of
the model at all). -/
theorem C42_runtimes_ignored (t : Ty) (a b a' b' : t.El) (ha : Same t a a') (hb : Same t b b') :
    t.eq a b = t.eq a' b' ∧ (t.hashable = true → t.hash a = t.hash a') := by
  refine ⟨?_, fun h => hash_equal t h a a' (equal_of_same ha)⟩
  rw [← eq_strip t a b, ← eq_strip t a' b', show strip t a = strip t a' from ha, show strip t b = strip t b' from hb]

/-- C42: equal values make the same calls to the hasher. -/
theorem C42_equal_values_hash_alike (t : Ty) (ht : t.hashable = true) (a b : t.El) (ha : Keyed t a) (hb : Keyed t b)
    (h : t.eq a b = true) : t.hash a = t.hash b := hash_equal t ht a b ((eq_iff t a b ha hb).1 h)

/-- C42: conversely, if no field is excluded from hashing only (`no_hash`), what is fed to the hasher determines the value, even
followed by other data; so hashing leaves nothing out that comparison looks at. -/
theorem C42_hash_covers_everything_compared (t : Ty) (hw : t.WF) (ht : t.hashable = true) (hf : FullyHashed t) (a b : t.El)
    (ha : Keyed t a) (hb : Keyed t b) (p q : List HashTok) (h : t.hash a ++ p = t.hash b ++ q) : t.eq a b = true ∧ p = q := by
  obtain ⟨h1, h2⟩ := hash_inj t hw ht hf a b p q h
  exact ⟨(eq_iff t a b ha hb).2 h1, h2⟩

/-- C42: the hypothesis that keys are distinct holds of everything the wire carries, hence of both ends of the
histories of C24. -/
theorem C42_carried_values_qualify (t : Ty) (v : t.El) (h : Carried t v) : Keyed t v := keyed_of_carried t v h

/-- C42, a caveat: equal values need not have equal bytes, because maps compare regardless of order but are written in order. -/
theorem C42_equal_values_may_be_written_differently :
    ∃ a b : (Ty.map .u8 (.uint .w8)).El, (Ty.map .u8 (.uint .w8)).eq a b = true ∧
      encode (.map .u8 (.uint .w8)) a ≠ encode (.map .u8 (.uint .w8)) b :=
  ⟨⟨Rt.dflt, [(1#32, 5#8), (2#32, 6#8)]⟩, ⟨Rt.dflt, [(2#32, 6#8), (1#32, 5#8)]⟩, by decide +kernel, by decide +kernel⟩

/-- A struct with a `no_eq_hash` field holding a map (which cannot be hashed) and a list. -/
def eqTy : Ty :=
  .struct true true (.cons 0#32 { noEqHash := true } (.map .u8 (.uint .w8)) (.cons 1#32 {} (.list (.uint .w8)) .nil))

example : eqTy.WF ∧ eqTy.hashable = true ∧ FullyHashed eqTy :=
  ⟨⟨by decide, by decide, fun _ => rfl, ⟨rfl, trivial⟩, by decide, fun _ => rfl, ⟨rfl, trivial⟩, trivial⟩, rfl,
   ⟨(fun h => nomatch h), (fun _ => ⟨rfl, trivial⟩), trivial⟩⟩

/-- Equal although the excluded map differs and the runtimes differ; unequal lists are told apart. -/
example : Keyed eqTy ⟨⟨1, []⟩, ⟨⟨1, [0#32]⟩, [(1#32, 5#8)]⟩, ⟨⟨1, [1#32]⟩, [5#8]⟩, ()⟩ ∧
    eqTy.eq ⟨⟨1, []⟩, ⟨⟨1, [0#32]⟩, [(1#32, 5#8)]⟩, ⟨⟨1, [1#32]⟩, [5#8]⟩, ()⟩ ⟨⟨2, []⟩, ⟨⟨2, [0#32]⟩, []⟩, ⟨⟨2, [1#32]⟩, [5#8]⟩, ()⟩ = true ∧
    eqTy.eq ⟨⟨1, []⟩, ⟨⟨1, [0#32]⟩, [(1#32, 5#8)]⟩, ⟨⟨1, [1#32]⟩, [5#8]⟩, ()⟩ ⟨⟨2, []⟩, ⟨⟨2, [0#32]⟩, []⟩, ⟨⟨2, [1#32]⟩, [6#8]⟩, ()⟩ = false := by
  refine ⟨⟨⟨fun _ _ => trivial, by decide⟩, fun _ _ => trivial, trivial⟩, by decide +kernel, by decide +kernel⟩

end Steit
