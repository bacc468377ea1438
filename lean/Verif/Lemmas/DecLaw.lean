import Verif.Lemmas.SerTy

/-! # Decoding laws: what was encoded is read back -/

namespace Steit
open Spec

/-- What `Deserialize` of a type owes to data written from a value of a possibly different type `σ`: reading `enc v` into a
fresh value gives, up to runtimes, `see v` and stops exactly at its end (sized values are only ever read from a reader limited
to their own bytes). -/
structure ReadLaw {σ α : Type} (d : Dict α) (wire : Nat) (enc : σ → Bytes) (lo : σ → Bool) (strip : α → α) (see : σ → α)
    (carried : Mode → σ → Prop) : Prop where
  wire_eq : d.wire.num = wire
  dflt_eq : d.dflt = d.withRuntime Rt.dflt
  init_strip : ∀ rt rt', strip (d.withRuntime rt) = strip (d.withRuntime rt')
  enc_ne : wire = 0 → ∀ v, enc v ≠ []
  lo_dflt : ∀ v rt, (∃ m, carried m v) → lo v = true → strip (d.withRuntime rt) = see v
  empty_dflt : ∀ v rt, (∃ m, carried m v) → enc v = [] → strip (d.withRuntime rt) = see v
  roundWide : ∀ m rt v rest, carried m v → (enc v).length < 2 ^ 63 → (wire ≠ 0 → rest = []) →
    ∃ v', d.merge m (d.withRuntime rt) (enc v ++ rest) = .ok v' rest ∧ strip v' = see v

/-- Reading back what the type itself wrote: the value comes back up to runtimes. -/
abbrev DecLaw {α : Type} (d : Dict α) (wire : Nat) (enc : α → Bytes) (lo : α → Bool) (strip : α → α)
    (carried : α → Prop) : Prop :=
  ReadLaw d wire enc lo strip strip (fun _ => carried)

theorem leb_length_pos (n : Nat) : 0 < (leb n).length := List.length_pos_iff.2 (leb_ne_nil n)

theorem framed_ne_nil {wire : Nat} {bs : Bytes} (h : wire = 0 → bs ≠ []) : framed wire bs ≠ [] := by
  unfold framed
  split
  · next h0 => exact h h0
  · intro hn
    have := leb_ne_nil bs.length
    simp only [List.append_eq_nil_iff] at hn
    exact this hn.1

theorem withNested_frame {α : Type} (m : Mode) (v : α) (payload rest : Bytes) (body : Bytes → Res α)
    (hlen : payload.length < 2 ^ 64) :
    withNested m v (leb payload.length ++ payload ++ rest) body =
      match body payload with
      | .ok v' unread => .ok v' (unread ++ rest)
      | .err v' e => .err v' e := by
  unfold withNested
  rw [List.append_assoc, getVarint_leb m _ _ hlen (by decide)]
  simp only [BitVec.toNat_ofNat, Nat.mod_eq_of_lt hlen]
  rw [List.take_left, List.drop_left]
  cases body payload <;> rfl

section
variable {σ α : Type} {d : Dict α} {wire : Nat} {enc : σ → Bytes} {lo : σ → Bool} {strip : α → α} {see : σ → α}
  {carried : Mode → σ → Prop}

theorem ReadLaw.roundNestedWide (h : ReadLaw d wire enc lo strip see carried) (m : Mode) (rt : Rt) (v : σ) (rest : Bytes)
    (hc : carried m v) (hlen : (framed wire (enc v)).length < 2 ^ 63) :
    ∃ v', d.mergeNested m (d.withRuntime rt) d.wire (framed wire (enc v) ++ rest) = .ok v' rest ∧
      strip v' = see v := by
  have hl := framed_length_ge wire (enc v)
  have hw := h.wire_eq
  unfold Dict.mergeNested
  rw [if_neg (by simp)]
  cases hwt : d.wire with
  | varint =>
    rw [hwt] at hw
    have h0 : wire = 0 := hw.symm
    obtain ⟨v', h1, h2⟩ := h.roundWide m rt v rest hc (by omega) (fun hn => absurd h0 hn)
    refine ⟨v', ?_, h2⟩
    simp only [framed, h0, if_true]
    exact h1
  | sized =>
    rw [hwt] at hw
    have h0 : ¬ wire = 0 := by rw [← hw]; decide
    obtain ⟨v', h1, h2⟩ := h.roundWide m rt v [] hc (by omega) (fun _ => rfl)
    refine ⟨v', ?_, h2⟩
    simp only [framed, h0, if_false]
    rw [withNested_frame _ _ _ _ _ (by omega)]
    rw [List.append_nil] at h1
    rw [h1]; simp

theorem ReadLaw.deserNestedWide (h : ReadLaw d wire enc lo strip see carried) (m : Mode) (v : σ) (rest : Bytes)
    (hc : carried m v) (hlen : (framed wire (enc v)).length < 2 ^ 63) :
    ∃ v', d.deserializeNested m d.wire (framed wire (enc v) ++ rest) = .ok (v', rest) ∧ strip v' = see v := by
  obtain ⟨v', h1, h2⟩ := h.roundNestedWide m Rt.dflt v rest hc hlen
  refine ⟨v', ?_, h2⟩
  unfold Dict.deserializeNested
  rw [h.dflt_eq, h1]

theorem ReadLaw.round (h : ReadLaw d wire enc lo strip see carried) (m : Mode) (rt : Rt) (v : σ) (rest : Bytes)
    (hc : carried m v) (hlen : (enc v).length < 2 ^ 32) (hr : wire ≠ 0 → rest = []) :
    ∃ v', d.merge m (d.withRuntime rt) (enc v ++ rest) = .ok v' rest ∧ strip v' = see v :=
  h.roundWide m rt v rest hc (Nat.lt_trans hlen (by decide)) hr

theorem ReadLaw.roundNested (h : ReadLaw d wire enc lo strip see carried) (m : Mode) (rt : Rt) (v : σ) (rest : Bytes)
    (hc : carried m v) (hlen : (framed wire (enc v)).length < 2 ^ 32) :
    ∃ v', d.mergeNested m (d.withRuntime rt) d.wire (framed wire (enc v) ++ rest) = .ok v' rest ∧
      strip v' = see v :=
  h.roundNestedWide m rt v rest hc (Nat.lt_trans hlen (by decide))

theorem ReadLaw.deserNested (h : ReadLaw d wire enc lo strip see carried) (m : Mode) (v : σ) (rest : Bytes)
    (hc : carried m v) (hlen : (framed wire (enc v)).length < 2 ^ 32) :
    ∃ v', d.deserializeNested m d.wire (framed wire (enc v) ++ rest) = .ok (v', rest) ∧ strip v' = see v :=
  h.deserNestedWide m v rest hc (Nat.lt_trans hlen (by decide))

theorem ReadLaw.framed_ne (h : ReadLaw d wire enc lo strip see carried) (v : σ) : framed wire (enc v) ≠ [] :=
  framed_ne_nil (fun h0 => h.enc_ne h0 v)

end

/-! ### Loops -/

theorem untilEof_step {α : Type} (step : α → Bytes → Res α) (fuel : Nat) (v v' : α) (bs rest : Bytes) (hne : bs ≠ [])
    (hs : step v bs = .ok v' rest) (hlt : rest.length < bs.length) (hf : bs.length ≤ fuel) :
    ∃ fuel', rest.length ≤ fuel' ∧ untilEof step fuel v bs = untilEof step fuel' v' rest := by
  cases bs with
  | nil => exact absurd rfl hne
  | cons b bs =>
    cases fuel with
    | zero => simp at hf
    | succ fuel =>
      refine ⟨fuel, by simp only [List.length_cons] at hlt hf; omega, ?_⟩
      simp only [untilEof, hs]

theorem untilEof_nil {α : Type} (step : α → Bytes → Res α) (fuel : Nat) (v : α) : untilEof step fuel v [] = .ok v [] := by
  cases fuel <;> rfl

/-- A loop that appends one item per round. -/
theorem untilEof_items {α β γ δ : Type} (step : γ → Bytes → Res γ) (enc : α → Bytes) (f : β → δ) (g : α → δ)
    (snoc : γ → β → γ) :
    ∀ (xs : List α) (acc : γ) (fuel : Nat),
      (∀ x ∈ xs, enc x ≠ []) →
      (∀ x ∈ xs, ∀ acc rest, ∃ y, step acc (enc x ++ rest) = .ok (snoc acc y) rest ∧ f y = g x) →
      (xs.flatMap enc).length ≤ fuel →
      ∃ ys : List β, untilEof step fuel acc (xs.flatMap enc) = .ok (ys.foldl snoc acc) [] ∧ ys.map f = xs.map g := by
  intro xs
  induction xs with
  | nil => intro acc fuel _ _ _; exact ⟨[], untilEof_nil _ _ _, rfl⟩
  | cons x xs ih =>
    intro acc fuel hne hs hf
    simp only [List.flatMap_cons] at hf ⊢
    obtain ⟨y, h1, h2⟩ := hs x (by simp) acc (xs.flatMap enc)
    have hp : 0 < (enc x).length := List.length_pos_iff.2 (hne x (by simp))
    obtain ⟨fuel', hf', he⟩ := untilEof_step step fuel acc (snoc acc y) _ _
      (by simp [hne x]) h1 (by simp only [List.length_append]; omega) hf
    obtain ⟨ys, h3, h4⟩ := ih (snoc acc y) fuel' (fun z hz => hne z (by simp [hz]))
      (fun z hz => hs z (by simp [hz])) hf'
    exact ⟨y :: ys, by rw [he, h3]; rfl, by simp [h2, h4]⟩

end Steit
