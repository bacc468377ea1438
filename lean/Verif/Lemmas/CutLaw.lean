import Verif.Props.Robust
import Verif.Spec.Cut

/-! # What is read from an encoding cut short -/

namespace Steit
open Spec

theorem prefix_append_cases {p a b : Bytes} (h : p <+: a ++ b) :
    (p <+: a ∧ p ≠ a) ∨ ∃ q, p = a ++ q ∧ q <+: b := by
  rcases Nat.lt_or_ge p.length a.length with hl | hl
  · refine .inl ⟨?_, fun h0 => by rw [h0] at hl; omega⟩
    rw [List.prefix_iff_eq_take] at h ⊢
    rwa [List.take_append_of_le_length (by omega)] at h
  · right
    obtain ⟨tail, ht⟩ := h
    refine ⟨p.drop a.length, ?_, tail, ?_⟩
    · have h1 := congrArg (List.take a.length) ht
      rw [List.take_append_of_le_length hl, List.take_left] at h1
      exact (List.take_append_drop a.length p).symm.trans (by rw [h1])
    · have h1 := congrArg (List.drop a.length) ht
      rwa [List.drop_append_of_le_length hl, List.drop_left] at h1

/-- A run that either takes all the input and ends with a value in `P`, or is given up. -/
def CutRes {α : Type} (P : α → Prop) (r : Res α) : Prop :=
  (∃ v, r = .ok v [] ∧ P v) ∨ ∃ v e, r = .err v e ∧ Refused e

theorem CutRes.mono {α : Type} {P Q : α → Prop} {r : Res α} (h : CutRes P r) (hpq : ∀ v, P v → Q v) : CutRes Q r := by
  rcases h with ⟨v, h1, h2⟩ | h
  · exact .inl ⟨v, h1, hpq v h2⟩
  · exact .inr h

theorem CutRes.map {α β : Type} {P : α → Prop} {Q : β → Prop} {r : Res α} (h : CutRes P r) (f : α → β)
    (hpq : ∀ v, P v → Q (f v)) : CutRes Q (r.map f) := by
  rcases h with ⟨v, h1, h2⟩ | ⟨v, e, h1, h2⟩
  · exact .inl ⟨f v, by rw [h1]; rfl, hpq v h2⟩
  · exact .inr ⟨f v, e, by rw [h1]; rfl, h2⟩

/-- What a type owes to encodings cut short. -/
structure CutLaw {α : Type} (d : Dict α) (wire : Nat) (enc : α → Bytes) (lo : α → Bool) (strip : α → α) (carried : α → Prop)
    (blank : α → Prop) (rem : α → α → Prop) : Prop where
  blank_iff : ∀ w rt, blank w ↔ strip w = strip (d.withRuntime rt)
  whole : ∀ w v, strip w = strip v → rem w v
  prim : wire = 0 → ∀ w v, rem w v → strip w = strip v
  starve : wire = 0 → ∀ m v, ∃ v', d.merge m v [] = .err v' .unexpectedEof
  lo_rem : ∀ w v, carried v → lo v = true → rem w v → strip w = strip v
  cut : ∀ m rt v p, carried v → (enc v).length < 2 ^ 32 → p <+: enc v → p ≠ enc v →
    CutRes (fun w => rem w v) (d.merge m (d.withRuntime rt) p)
  reach : ∀ v w, carried v → (enc v).length < 2 ^ 32 → rem w v →
    ∃ p, p <+: enc v ∧ ∀ m rt, ∃ w', d.merge m (d.withRuntime rt) p = .ok w' [] ∧ strip w' = strip w

section
variable {α : Type} {d : Dict α} {wire : Nat} {enc : α → Bytes} {lo : α → Bool} {strip : α → α} {carried : α → Prop}
  {blank : α → Prop} {rem : α → α → Prop}

theorem wire_sized (h : DecLaw d wire enc lo strip carried) (h0 : ¬ wire = 0) : d.wire = .sized := by
  have := h.wire_eq
  cases hw : d.wire with
  | sized => rfl
  | varint => rw [hw] at this; exact absurd this.symm h0

theorem wire_varint (h : DecLaw d wire enc lo strip carried) (h0 : wire = 0) : d.wire = .varint := by
  have := h.wire_eq
  cases hw : d.wire with
  | varint => rfl
  | sized => rw [hw, h0] at this; exact absurd this (by decide)

theorem CutLaw.nested_nil (h : DecLaw d wire enc lo strip carried) (c : CutLaw d wire enc lo strip carried blank rem) (m : Mode)
    (v : α) : ∃ v', d.mergeNested m v d.wire [] = .err v' .unexpectedEof := by
  unfold Dict.mergeNested
  rw [if_neg (by simp)]
  by_cases h0 : wire = 0
  · rw [wire_varint h h0]
    exact c.starve h0 m v
  · rw [wire_sized h h0]
    exact ⟨v, rfl⟩

theorem CutLaw.cutNested (h : DecLaw d wire enc lo strip carried) (c : CutLaw d wire enc lo strip carried blank rem) (m : Mode)
    (rt : Rt) (v : α) (p : Bytes) (hc : carried v) (hlen : (framed wire (enc v)).length < 2 ^ 32)
    (hp : p <+: framed wire (enc v)) (hne : p ≠ framed wire (enc v)) :
    CutRes (fun w => rem w v) (d.mergeNested m (d.withRuntime rt) d.wire p) := by
  have hl := framed_length_ge wire (enc v)
  unfold Dict.mergeNested
  rw [if_neg (by simp)]
  by_cases h0 : wire = 0
  · rw [wire_varint h h0]
    simp only [framed, h0, if_true] at hp hne
    exact c.cut m rt v p hc (by omega) hp hne
  · rw [wire_sized h h0]
    simp only [framed, h0, if_false] at hp hne
    unfold withNested
    rcases prefix_append_cases hp with ⟨h1, h2⟩ | ⟨q, rfl, h2⟩
    · rw [getVarint_short m h1 h2 (by decide) (by omega)]
      exact .inr ⟨_, _, rfl, .inl rfl⟩
    · rw [getVarint_leb m _ _ (show (enc v).length < 2 ^ 64 by omega) (by decide)]
      have hql := h2.length_le
      simp only [BitVec.toNat_ofNat, Nat.mod_eq_of_lt (show (enc v).length < 2 ^ 64 by omega)]
      rw [List.take_of_length_le hql, List.drop_of_length_le hql]
      rcases c.cut m rt v q hc (by omega) h2 (fun he => hne (by rw [he])) with ⟨w, h3, h4⟩ | ⟨w, e, h3, h4⟩
      · rw [h3]; exact .inl ⟨w, rfl, h4⟩
      · rw [h3]; exact .inr ⟨w, e, rfl, h4⟩

theorem CutLaw.reachNested (h : DecLaw d wire enc lo strip carried) (c : CutLaw d wire enc lo strip carried blank rem)
    (v w : α) (hc : carried v) (hlen : (framed wire (enc v)).length < 2 ^ 32) (hr : rem w v) :
    ∃ p, p <+: framed wire (enc v) ∧ p ≠ [] ∧ ∀ m rt, ∃ w', d.mergeNested m (d.withRuntime rt) d.wire p = .ok w' [] ∧
      strip w' = strip w := by
  have hl := framed_length_ge wire (enc v)
  by_cases h0 : wire = 0
  · refine ⟨_, List.prefix_rfl, h.framed_ne v, fun m rt => ?_⟩
    obtain ⟨w', h1, h2⟩ := h.roundNested m rt v [] hc hlen
    rw [List.append_nil] at h1
    exact ⟨w', h1, by rw [h2, c.prim h0 w v hr]⟩
  · obtain ⟨p, h1, h2⟩ := c.reach v w hc (by omega) hr
    refine ⟨leb (enc v).length ++ p, ?_, by simp [leb_ne_nil], fun m rt => ?_⟩
    · simp only [framed, h0, if_false]
      exact List.prefix_append_right_inj _ |>.2 h1
    · obtain ⟨w', h2, h3⟩ := h2 m rt
      refine ⟨w', ?_, h3⟩
      unfold Dict.mergeNested
      rw [if_neg (by simp), wire_sized h h0]
      simp only [withNested]
      have hql := h1.length_le
      rw [getVarint_leb m _ _ (show (enc v).length < 2 ^ 64 by omega) (by decide)]
      simp only [BitVec.toNat_ofNat, Nat.mod_eq_of_lt (show (enc v).length < 2 ^ 64 by omega)]
      rw [List.take_of_length_le hql, List.drop_of_length_le hql, h2]
      rfl

/-- As `deserialize_nested`. -/
theorem CutLaw.cutDeser (h : DecLaw d wire enc lo strip carried) (c : CutLaw d wire enc lo strip carried blank rem) (m : Mode)
    (v : α) (p : Bytes) (hc : carried v) (hlen : (framed wire (enc v)).length < 2 ^ 32)
    (hp : p <+: framed wire (enc v)) (hne : p ≠ framed wire (enc v)) :
    (∃ w, d.deserializeNested m d.wire p = .ok (w, []) ∧ rem w v) ∨
      ∃ e, d.deserializeNested m d.wire p = .error e ∧ Refused e := by
  unfold Dict.deserializeNested
  rw [h.dflt_eq]
  rcases c.cutNested h m Rt.dflt v p hc hlen hp hne with ⟨w, h1, h2⟩ | ⟨w, e, h1, h2⟩
  · rw [h1]; exact .inl ⟨w, rfl, h2⟩
  · rw [h1]; exact .inr ⟨e, rfl, h2⟩

theorem CutLaw.reachDeser (h : DecLaw d wire enc lo strip carried) (c : CutLaw d wire enc lo strip carried blank rem)
    (v w : α) (hc : carried v) (hlen : (framed wire (enc v)).length < 2 ^ 32) (hr : rem w v) :
    ∃ p, p <+: framed wire (enc v) ∧ p ≠ [] ∧
      ∀ m, ∃ w', d.deserializeNested m d.wire p = .ok (w', []) ∧ strip w' = strip w := by
  obtain ⟨p, h1, h2, h3⟩ := c.reachNested h v w hc hlen hr
  refine ⟨p, h1, h2, fun m => ?_⟩
  obtain ⟨w', h3, h4⟩ := h3 m Rt.dflt
  refine ⟨w', ?_, h4⟩
  unfold Dict.deserializeNested
  rw [h.dflt_eq, h3]

/-- Sized types: nothing can be read from nothing but what nothing stands for. -/
theorem CutLaw.ofSized (h : DecLaw d 2 enc (fun v => (enc v).isEmpty) strip carried)
    (hb : ∀ w rt, blank w ↔ strip w = strip (d.withRuntime rt)) (hw : ∀ w v, strip w = strip v → rem w v)
    (hcut : ∀ m rt v p, carried v → (enc v).length < 2 ^ 32 → p <+: enc v → p ≠ enc v →
      CutRes (fun w => rem w v) (d.merge m (d.withRuntime rt) p))
    (hreach : ∀ v w, carried v → (enc v).length < 2 ^ 32 → rem w v →
      ∃ p, p <+: enc v ∧ ∀ m rt, ∃ w', d.merge m (d.withRuntime rt) p = .ok w' [] ∧ strip w' = strip w) :
    CutLaw d 2 enc (fun v => (enc v).isEmpty) strip carried blank rem where
  blank_iff := hb
  whole := hw
  prim := fun h0 => absurd h0 (by decide)
  starve := fun h0 => absurd h0 (by decide)
  lo_rem := by
    intro w v hc hl hr
    have he : enc v = [] := List.isEmpty_iff.1 hl
    obtain ⟨p, h1, h2⟩ := hreach v w hc (by simp [he]) hr
    obtain ⟨w', h2, h3⟩ := h2 .release Rt.dflt
    obtain ⟨v', h4, h5⟩ := h.round .release Rt.dflt v [] hc (by simp [he]) (fun _ => rfl)
    rw [he] at h1 h4
    rw [List.prefix_nil.1 h1] at h2
    rw [List.append_nil, h2] at h4
    cases h4
    rw [← h3, h5]
  cut := hcut
  reach := hreach

/-- Boxes. -/
theorem cutLaw_box (h : DecLaw d wire enc lo strip carried) (c : CutLaw d wire enc lo strip carried blank rem) :
    CutLaw (boxDict d) wire enc (fun v => (enc v).isEmpty) strip carried blank rem where
  blank_iff := c.blank_iff
  whole := c.whole
  prim := c.prim
  starve := c.starve
  lo_rem := by
    intro w v hc hl hr
    have he : enc v = [] := List.isEmpty_iff.1 hl
    obtain ⟨p, h1, h2⟩ := c.reach v w hc (by simp [he]) hr
    obtain ⟨w', h2, h3⟩ := h2 .release Rt.dflt
    obtain ⟨v', h4, h5⟩ := h.round .release Rt.dflt v [] hc (by simp [he]) (fun _ => rfl)
    rw [he] at h1 h4
    rw [List.prefix_nil.1 h1] at h2
    rw [List.append_nil, h2] at h4
    cases h4
    rw [← h3, h5]
  cut := c.cut
  reach := c.reach

end

/-! ### Primitives -/

theorem cutLaw_prim {α : Type} [DecidableEq α] {size : α → Nat} {put : α → Bytes}
    {get : Mode → Bytes → Except Err (α × Bytes)} {dflt : α} {enc : α → Bytes} {carried : α → Prop}
    (h : DecLaw (primDict size put get dflt) 0 enc (fun v => decide (v = dflt)) id carried)
    (hcut : ∀ m v p, p <+: enc v → p ≠ enc v → get m p = .error .unexpectedEof) :
    CutLaw (primDict size put get dflt) 0 enc (fun v => decide (v = dflt)) id carried (fun v => v = dflt) (fun w v => w = v) where
  blank_iff := fun w rt => Iff.rfl
  whole := fun w v h => h
  prim := fun _ w v h => h
  starve := fun h0 m v => ⟨v, by
    show (match get m [] with
      | .ok (v', rest) => Res.ok v' rest
      | .error e => Res.err v e) = _
    rw [hcut m dflt [] List.nil_prefix (Ne.symm (h.enc_ne rfl _))]⟩
  lo_rem := fun w v _ _ h => h
  cut := by
    intro m rt v p _ _ hp hne
    refine .inr ⟨dflt, .unexpectedEof, ?_, .inl rfl⟩
    show (match get m p with
      | .ok (v', rest) => Res.ok v' rest
      | .error e => Res.err dflt e) = _
    rw [hcut m v p hp hne]
  reach := by
    intro v w hc hlen hw
    refine ⟨_, List.prefix_rfl, fun m rt => ?_⟩
    obtain ⟨w', h1, h2⟩ := h.round m rt v [] hc hlen (fun _ => rfl)
    rw [List.append_nil] at h1
    exact ⟨w', h1, by rw [h2, hw]⟩

theorem cutLaw_uint (w : Width) : CutLaw (uintDict w) 0 (fun v => leb v.toNat) (fun v => decide (v = 0#w.bits)) id
    (fun _ => True) (fun v => v = 0#w.bits) (fun w v => w = v) :=
  cutLaw_prim (decLaw_uint w) (fun m v p hp hne => getVarint_short m hp hne (by cases w <;> decide) v.isLt)

theorem cutLaw_sint (w : Width) : CutLaw (sintDict w) 0 (fun v => leb (zigzagNat v.toInt))
    (fun v => decide (v = 0#w.bits)) id
    (fun v => -(2 ^ (w.bits - 2) : Int) ≤ v.toInt ∧ v.toInt < (2 ^ (w.bits - 2) : Int)) (fun v => v = 0#w.bits)
    (fun w v => w = v) :=
  cutLaw_prim (decLaw_sint w) (fun m v p hp hne => by
    have hw := w.le_bits
    simp only [← zigzag_toNat (show 1 ≤ w.bits by omega) v] at hp hne
    unfold getSigned
    rw [getVarint_short m hp hne (by cases w <;> decide) (zigzag v).isLt])

theorem cutLaw_bool : CutLaw boolDict 0 (fun v => leb v.toNat) (fun v => decide (v = false)) id (fun _ => True)
    (fun v => v = false) (fun w v => w = v) :=
  cutLaw_prim decLaw_bool (fun m v p hp hne => by
    have h1 : (leb v.toNat).length = 1 := by cases v <;> simp [leb]
    have h2 := (short_hi hp hne).2
    have : p = [] := List.length_eq_zero_iff.1 (by omega)
    subst this
    rfl)

theorem cutLaw_string : CutLaw stringDict 2 (fun v => v.bytes) (fun v => v.bytes.isEmpty) id (fun _ => True)
    (fun v => v.bytes = []) (fun w v => w.bytes <+: v.bytes) :=
  CutLaw.ofSized decLaw_string
    (by
      intro w rt
      cases w with
      | mk b hb =>
        constructor
        · intro h; cases h; rfl
        · intro h; cases h; rfl)
    (by intro w v h; cases h; exact List.prefix_rfl)
    (by
      intro m rt v p _ _ hp _
      show CutRes _ (if h : utf8Valid p = true then Res.ok (⟨p, h⟩ : Str) [] else .err _ .invalidData)
      by_cases h : utf8Valid p = true
      · rw [dif_pos h]; exact .inl ⟨_, rfl, hp⟩
      · rw [dif_neg h]; exact .inr ⟨_, _, rfl, .inr rfl⟩)
    (by
      intro v w _ _ hr
      refine ⟨w.bytes, hr, fun m rt => ⟨w, ?_, rfl⟩⟩
      show (if h : utf8Valid w.bytes = true then Res.ok (⟨w.bytes, h⟩ : Str) [] else _) = _
      rw [dif_pos w.valid])

theorem cutLaw_bytes : CutLaw bytesDict 2 (fun v => v) (fun v => v.isEmpty) id (fun _ => True)
    (fun v => v = []) (fun w v => w <+: v) :=
  CutLaw.ofSized decLaw_bytes (fun w rt => Iff.rfl) (fun w v h => by cases h; exact List.prefix_rfl)
    (fun m rt v p _ _ hp _ => .inl ⟨p, by show Res.ok ([] ++ p) [] = _; simp, hp⟩)
    (fun v w _ _ hr => ⟨w, hr, fun m rt => ⟨w, by show Res.ok ([] ++ w) [] = _; simp, rfl⟩⟩)

/-! ### Loops -/

section
variable {α γ : Type} (step : γ → Bytes → Res γ) (enc : α → Bytes) (S R : α → α → Prop) (snoc : γ → α → γ)
  (Inv : γ → List α → Prop)

theorem untilEof_err {step : γ → Bytes → Res γ} {fuel : Nat} {v v' : γ} {bs : Bytes} {e : Err} (hne : bs ≠ [])
    (hf : bs.length ≤ fuel) (h : step v bs = .err v' e) : untilEof step fuel v bs = .err v' e := by
  cases bs with
  | nil => exact absurd rfl hne
  | cons b bs =>
    cases fuel with
    | zero => simp at hf
    | succ fuel => simp only [untilEof, h]

/-- A loop that appends one item per round, on its input cut short. -/
theorem untilEof_short
    (hne : ∀ x, enc x ≠ [])
    (hfull : ∀ acc x xs rest, Inv acc (x :: xs) →
      ∃ y, step acc (enc x ++ rest) = .ok (snoc acc y) rest ∧ S y x ∧ Inv (snoc acc y) xs)
    (hcut : ∀ acc x xs p, Inv acc (x :: xs) → p <+: enc x → p ≠ enc x → 
      (∃ y, step acc p = .ok (snoc acc y) [] ∧ R y x) ∨ ∃ v e, step acc p = .err v e ∧ Refused e) :
    ∀ (xs : List α) (acc : γ) (fuel : Nat) (p : Bytes), Inv acc xs → p <+: xs.flatMap enc → p.length ≤ fuel →
      (∃ ys, untilEof step fuel acc p = .ok (ys.foldl snoc acc) [] ∧ RemainsItems S R ys xs) ∨
        ∃ v e, untilEof step fuel acc p = .err v e ∧ Refused e := by
  intro xs
  induction xs with
  | nil =>
    intro acc fuel p _ hp _
    rw [List.flatMap_nil, List.prefix_nil] at hp
    subst hp
    exact .inl ⟨[], untilEof_nil _ _ _, trivial⟩
  | cons x xs ih =>
    intro acc fuel p hi hp hf
    by_cases hp0 : p = []
    · subst hp0
      exact .inl ⟨[], untilEof_nil _ _ _, trivial⟩
    rw [List.flatMap_cons] at hp
    rcases prefix_append_cases hp with ⟨h1, h2⟩ | ⟨q, rfl, h2⟩
    · rcases hcut acc x xs p hi h1 h2 with ⟨y, h3, h4⟩ | ⟨v, e, h3, h4⟩
      · obtain ⟨f, _, he⟩ := untilEof_step step fuel acc _ p [] hp0 h3 (List.length_pos_iff.2 hp0) hf
        exact .inl ⟨[y], by rw [he, untilEof_nil]; rfl, .inr ⟨rfl, h4⟩⟩
      · exact .inr ⟨v, e, untilEof_err hp0 hf h3, h4⟩
    · obtain ⟨y, h3, h4, h5⟩ := hfull acc x xs q hi
      have hpos := List.length_pos_iff.2 (hne x)
      obtain ⟨f, hf', he⟩ := untilEof_step step fuel acc _ _ q hp0 h3 (by simp only [List.length_append]; omega) hf
      rw [he]
      rcases ih (snoc acc y) f q h5 h2 hf' with ⟨ys, h6, h7⟩ | h6
      · exact .inl ⟨y :: ys, h6, .inl ⟨h4, h7⟩⟩
      · exact .inr h6

/-- Every remainder of the items is read from some cut. -/
theorem untilEof_reach {δ μ : Type} (step : μ → γ → Bytes → Res γ) (Inv : μ → γ → List α → Prop) (f : α → δ)
    (hne : ∀ x, enc x ≠ [])
    (hfull : ∀ k acc x xs rest, Inv k acc (x :: xs) →
      ∃ y, step k acc (enc x ++ rest) = .ok (snoc acc y) rest ∧ f y = f x ∧ Inv k (snoc acc y) xs)
    (hS : ∀ w x, S w x → f w = f x) :
    ∀ (xs ws : List α), RemainsItems S R ws xs →
      (∀ x ∈ xs, ∀ w, R w x → ∃ p, p <+: enc x ∧ p ≠ [] ∧ ∀ k acc xs, Inv k acc (x :: xs) →
        ∃ y, step k acc p = .ok (snoc acc y) [] ∧ f y = f w) →
      ∃ p, p <+: xs.flatMap enc ∧ ∀ k acc fuel, Inv k acc xs → p.length ≤ fuel →
        ∃ ys : List α, untilEof (step k) fuel acc p = .ok (ys.foldl snoc acc) [] ∧ ys.map f = ws.map f := by
  intro xs ws
  induction ws generalizing xs with
  | nil =>
    intro _ _
    exact ⟨[], List.nil_prefix, fun _ _ _ _ _ => ⟨[], untilEof_nil _ _ _, rfl⟩⟩
  | cons w ws ih =>
    intro hr hreach
    cases xs with
    | nil => exact hr.elim
    | cons x xs =>
      rcases hr with ⟨h1, h2⟩ | ⟨rfl, h2⟩
      · have hpos := List.length_pos_iff.2 (hne x)
        obtain ⟨p, h3, h4⟩ := ih xs h2 (fun x hx => hreach x (by simp [hx]))
        refine ⟨enc x ++ p, ?_, fun k acc fuel hi hf => ?_⟩
        · rw [List.flatMap_cons]
          exact (List.prefix_append_right_inj _).2 h3
        · obtain ⟨y, h5, h6, h7⟩ := hfull k acc x xs p hi
          obtain ⟨g, hg, he⟩ := untilEof_step (step k) fuel acc _ _ p (by simp [hne x]) h5
            (by simp only [List.length_append]; omega) hf
          obtain ⟨ys, h8, h9⟩ := h4 k (snoc acc y) g h7 hg
          exact ⟨y :: ys, by rw [he, h8]; rfl, by simp [h9, h6, hS _ _ h1]⟩
      · obtain ⟨p, h3, h4, h5⟩ := hreach x (by simp) w h2
        refine ⟨p, ?_, fun k acc fuel hi hf => ?_⟩
        · rw [List.flatMap_cons]; exact h3.trans (List.prefix_append _ _)
        · obtain ⟨y, h5, h6⟩ := h5 k acc xs hi
          obtain ⟨g, _, he⟩ := untilEof_step (step k) fuel acc _ p [] h4 h5 (List.length_pos_iff.2 h4) hf
          exact ⟨[y], by rw [he, untilEof_nil]; rfl, by simp [h6]⟩

theorem remainsItems_whole {f : α → δ} (hS : ∀ w x, f w = f x → S w x) : ∀ ws xs : List α, ws.map f = xs.map f →
    RemainsItems S R ws xs
  | [], _, _ => trivial
  | _ :: _, [], h => by simp at h
  | w :: ws, x :: xs, h => by
    simp only [List.map_cons, List.cons.injEq] at h
    exact .inl ⟨hS _ _ h.1, remainsItems_whole hS ws xs h.2⟩

end

end Steit
