import Verif.Model.Reader

/-! # What a source delivers -/

namespace Steit.Spec

/-- `rem s` are the bytes the source in state `s` still delivers: each call returns some of the next ones, not more than fit in the
buffer, and at least one if there are any. How many is up to the source. -/
def Delivers {ρ : Type} (R : Source ρ) (rem : ρ → Bytes) : Prop :=
  ∀ n s, ∃ got s', R.read n s = .ok (got, s') ∧ rem s = got ++ rem s' ∧ got.length ≤ n ∧ (0 < n → rem s ≠ [] → got ≠ [])

/-- A source that never says that it has come to its end: it delivers or fails. -/
def NeverEnds {ρ : Type} (R : Source ρ) : Prop :=
  ∀ n s got s', 0 < n → R.read n s = .ok (got, s') → got ≠ []

/-- `R` is `R'`, except that any of its calls may fail. -/
def Breaks {ρ : Type} (R R' : Source ρ) : Prop :=
  ∀ n s, R.read n s = R'.read n s ∨ R.read n s = .error ()

end Steit.Spec

namespace Steit

/-- What a reader still delivers: the byte it holds, and what its source delivers. -/
def Rdr.left {ρ : Type} (rem : ρ → Bytes) (rd : Rdr ρ) : Bytes := rd.next.toList ++ rem rd.raw

end Steit
