import Verif.Lemmas.Bounds

/-!
# Whether a declaration compiles can be computed

For examples: `Holds`, `Exists` and `Compiles` are decidable.
-/

namespace Steit.Bounds

variable {D : Type} {P : D → Decl D} {env : Env}

mutual
/-- `Holds`, computed. -/
def Exp.has (P : D → Decl D) (env : Env) : Exp D → Trait → Bool
  | .param p, tr => env.any fun e => e.1 == p && e.2.any fun b => b.closure.contains tr
  | .app c args, tr =>
    match c.asks P tr with
    | some asks => args.length == c.arity P && args.have P env asks 0
    | none => false

/-- See `Exp.has`. -/
def Exps.have (P : D → Decl D) (env : Env) : Exps D → (Nat → List Trait) → Nat → Bool
  | .nil, _, _ => true
  | .cons t ts, asks, j => (asks j).all (fun b => t.has P env b) && ts.have P env asks (j + 1)
end

mutual
theorem has_iff : ∀ (t : Exp D) (tr : Trait), t.has P env tr = true ↔ Holds P env tr t
  | .param p, tr => by
    rw [holds_param]
    simp only [Exp.has, List.any_eq_true, Bool.and_eq_true, beq_iff_eq, List.contains_iff_mem]
    constructor
    · rintro ⟨⟨q, bs⟩, h1, rfl, b, h2, h3⟩
      exact ⟨bs, b, h1, h2, h3⟩
    · rintro ⟨bs, b, h1, h2, h3⟩
      exact ⟨⟨p, bs⟩, h1, rfl, b, h2, h3⟩
  | .app c args, tr => by
    rw [holds_app]
    simp only [Exp.has]
    cases h : c.asks P tr with
    | none => simp
    | some asks =>
      simp only [Bool.and_eq_true, beq_iff_eq, have_iff args asks 0, Nat.zero_add, Option.some.injEq, exists_eq_left']

theorem have_iff : ∀ (ts : Exps D) (asks : Nat → List Trait) (i : Nat),
    ts.have P env asks i = true ↔ ∀ j a, ts.get? j = some a → ∀ b ∈ asks (i + j), Holds P env b a
  | .nil, asks, i => by simp [Exps.have, Exps.get?]
  | .cons t ts, asks, i => by
    simp only [Exps.have, Bool.and_eq_true, List.all_eq_true, have_iff ts asks (i + 1), has_iff t]
    constructor
    · rintro ⟨h1, h2⟩ j a ha b hb
      cases j with
      | zero => cases ha; exact h1 b hb
      | succ j => exact h2 j a ha b (by rw [show i + 1 + j = i + (j + 1) by omega]; exact hb)
    · intro h
      refine ⟨fun b hb => h 0 t rfl b hb, fun j a ha b hb => h (j + 1) a ha b ?_⟩
      rw [show i + (j + 1) = i + 1 + j by omega]
      exact hb
end

instance (tr : Trait) (t : Exp D) : Decidable (Holds P env tr t) := decidable_of_iff _ (has_iff t tr)

mutual
/-- `Exists`, computed. -/
def Exp.is (P : D → Decl D) (env : Env) : Exp D → Bool
  | .param p => env.any fun e => e.1 == p
  | .app c args => args.length == c.arity P && args.have P env (c.wants P) 0 && args.are P env

/-- See `Exp.is`. -/
def Exps.are (P : D → Decl D) (env : Env) : Exps D → Bool
  | .nil => true
  | .cons t ts => t.is P env && ts.are P env
end

mutual
theorem is_iff : ∀ t : Exp D, t.is P env = true ↔ Exists P env t
  | .param p => by
    simp only [Exp.is, List.any_eq_true, beq_iff_eq]
    constructor
    · rintro ⟨⟨q, bs⟩, h, rfl⟩
      exact .param h
    · intro h
      cases h with
      | param h => exact ⟨_, h, rfl⟩
  | .app c args => by
    simp only [Exp.is, Bool.and_eq_true, beq_iff_eq, have_iff args (c.wants P) 0, Nat.zero_add, are_iff args]
    constructor
    · rintro ⟨⟨h1, h2⟩, h3⟩
      exact .app h1 h2 h3
    · intro h
      cases h with
      | app h1 h2 h3 => exact ⟨⟨h1, h2⟩, h3⟩

theorem are_iff : ∀ ts : Exps D, ts.are P env = true ↔ ∀ j a, ts.get? j = some a → Exists P env a
  | .nil => by simp [Exps.are, Exps.get?]
  | .cons t ts => by
    simp only [Exps.are, Bool.and_eq_true, is_iff t, are_iff ts]
    constructor
    · rintro ⟨h1, h2⟩ j a ha
      cases j with
      | zero => cases ha; exact h1
      | succ j => exact h2 j a ha
    · intro h
      exact ⟨h 0 t rfl, fun j a ha => h (j + 1) a ha⟩
end

instance (t : Exp D) : Decidable (Exists P env t) := decidable_of_iff _ (is_iff t)

instance (d : D) (n : Need D) : Decidable (n.Met P d env) := by
  cases n <;> unfold Need.Met <;> infer_instance

theorem block_compiles_iff {d : D} {b : Block D} : b.Compiles P d ↔ (∀ n ∈ b.needs, n.Met P d ((P d).env b.bounds)) ∧
    ∀ tr' ∈ (b.of.map (·.supers)).getD [], Holds P ((P d).env b.bounds) tr' ((P d).self d) := by
  constructor
  · rintro ⟨h1, h2⟩
    refine ⟨h1, ?_⟩
    cases h : b.of with
    | none => simp
    | some tr => exact h2 tr h
  · rintro ⟨h1, h2⟩
    refine ⟨h1, fun tr h => ?_⟩
    rw [h] at h2
    exact h2

instance (d : D) (b : Block D) : Decidable (b.Compiles P d) := decidable_of_iff _ block_compiles_iff.symm

theorem compiles_iff {d : D} : Compiles P d ↔ ((P d).params.map (·.1)).Nodup ∧
    (∀ f ∈ (P d).body.fields, Exists P ((P d).env []) f.ty) ∧ ∀ b ∈ (P d).blocks d, b.Compiles P d :=
  ⟨fun h => ⟨h.names, h.types, h.blocks⟩, fun h => ⟨h.1, h.2.1, h.2.2⟩⟩

instance (d : D) : Decidable (Compiles P d) := decidable_of_iff _ compiles_iff.symm

end Steit.Bounds
