import Verif.Model.Sink

/-! # What a sink has been given -/

namespace Steit.Spec

/-- `got s` are the bytes the sink in state `s` has taken so far: a call that takes `n` bytes takes the first `n` of those offered, and a
failing call takes none (the contract of `io::Write::write`). How many it takes is up to the sink. -/
def Accepts {σ : Type} (S : Sink σ) (got : σ → Bytes) : Prop :=
  ∀ bs s, match S.write bs s with
    | (.ok n, s') => n ≤ bs.length ∧ got s' = got s ++ bs.take n
    | (.error _, s') => got s' = got s

/-- A sink that does not fail and takes at least one byte whenever it is offered any. -/
def Reliable {σ : Type} (S : Sink σ) : Prop :=
  ∀ bs s, bs ≠ [] → ∃ n s', S.write bs s = (.ok n, s') ∧ 0 < n

end Steit.Spec
