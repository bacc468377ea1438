import Verif.Spec.Peers

/-!
# Specification: programs that each have a place in a map

As `Spec/Peers.lean`, but what a program has can be a place in a map, with a value in it or without one.
-/

namespace Steit.Spec

/-- The entry removes the value at `p` from its map. -/
def Removes (p : List U32) (e : Entry) : Prop := ∃ q k, p = q ++ [k] ∧ e = .mapRemove q k

/-- Whose entry it is. Program `some i` has what is at `own i`, and if this is a place in a map (`keyed i`), it can remove the value too;
program `none` has everything else. -/
def OwnedAt {ι : Type} (own : ι → List U32) (keyed : ι → Prop) : Option ι → Entry → Prop
  | some i, e => Within (own i) e ∨ (keyed i ∧ Removes (own i) e)
  | none, e => ∀ i, Aside (own i) e

/-- The places: where `keyed`, there is a map, with that key or without it; elsewhere there is an object. -/
def HasPlaces {ι : Type} (own : ι → List U32) (keyed : ι → Prop) (t : Ty) (v : t.El) : Prop :=
  ∀ i, (keyed i ∧ ∃ q k kt s u put, own i = q ++ [k] ∧ Part t v q (.map kt s) u put) ∨ (¬ keyed i ∧ ∃ s u put, Part t v (own i) s u put)

end Steit.Spec
