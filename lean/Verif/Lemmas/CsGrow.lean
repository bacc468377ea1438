import Verif.Lemmas.CSharpReplayTotal
import Verif.Spec.CsWeight

/-! # A message makes a C# client's objects at most so much bigger -/

namespace Steit
open Spec

/-- What was read is paid for by the bytes it took, and `s` more. -/
def Feeds {α : Type} (W : α → Nat) (c s : Nat) (bs : Bytes) (r : Except Exn (α × Bytes)) : Prop :=
  ∀ v rest, r = .ok (v, rest) → rest.length ≤ bs.length ∧ W v + c * rest.length ≤ c * (bs.length + s)

/-- What one more round of a loop adds. -/
def Adds {σ : Type} (W : σ → Nat) (c : Nat) (v : σ) (bs : Bytes) (r : Except Exn (σ × Bytes)) : Prop :=
  ∀ v' rest, r = .ok (v', rest) → W v' + c * rest.length ≤ W v + c * bs.length

section
variable {α σ : Type} {W : α → Nat} {c s : Nat}

theorem adds_loop {W : σ → Nat} {S : σ → Bytes → Except Exn (σ × Bytes)} (hS : ∀ v bs, Adds W c v bs (S v bs)) :
    ∀ (n : Nat) (v : σ) (bs : Bytes) {x : σ}, untilEnd S n v bs = .ok x → W x ≤ W v + c * bs.length
  | n, v, [], x, h => by rw [untilEnd_nil] at h; cases h; simp
  | 0, v, b :: bs, x, h => by cases h
  | n + 1, v, b :: bs, x, h => by
    simp only [untilEnd, bind, Except.bind] at h
    cases hr : S v (b :: bs) with
    | error e => rw [hr] at h; cases h
    | ok r =>
      obtain ⟨v', rest⟩ := r
      rw [hr] at h
      have h1 := hS v (b :: bs) v' rest hr
      have h2 := adds_loop hS n v' rest h
      omega

theorem feeds_nested {sized : Bool} {read : Bytes → Except Exn (α × Bytes)}
    (h : ∀ bs, Feeds W c (if sized then 1 else 0) bs (read bs)) (bs : Bytes) : Feeds W c 0 bs (csNested sized read bs) := by
  intro v rest hr
  unfold csNested at hr
  cases sized with
  | false => exact h bs v rest hr
  | true =>
    have h1 := tame_nested bs
    simp only [if_true] at hr
    cases hg : csGetNested bs with
    | error e => rw [hg] at hr; cases hr
    | ok r =>
      obtain ⟨payload, rest'⟩ := r
      rw [hg] at h1 hr
      simp only [bind, Except.bind] at hr h1
      cases hx : read payload with
      | error e => rw [hx] at hr; cases hr
      | ok x =>
        rw [hx] at hr
        cases hr
        have h2 := (h payload _ _ hx).2
        simp only [if_true] at h2
        refine ⟨by omega, ?_⟩
        have h3 : c * (payload.length + 1 + rest.length) ≤ c * (bs.length + 0) := Nat.mul_le_mul_left _ (by omega)
        rw [Nat.mul_add] at h3
        omega

theorem adds_item {read : Bytes → Except Exn (α × Bytes)} (h : ∀ bs, Feeds W c 0 bs (read bs)) (items : List α) (bs : Bytes) :
    Adds (fun l => (l.map W).sum) c items bs (csAddItem read items bs) := by
  intro v rest hr
  unfold csAddItem at hr
  cases hx : read bs with
  | error e => rw [hx] at hr; cases hr
  | ok x =>
    obtain ⟨x, r⟩ := x
    rw [hx] at hr
    cases hr
    have := (h bs x rest hx).2
    simp only [List.map_append, List.sum_append, List.map_cons, List.map_nil, List.sum_cons, List.sum_nil]
    simp only [Nat.add_zero] at this ⊢
    omega

theorem filter_weight (W : α → Nat) (p : α → Bool) : ∀ l : List α, ((l.filter p).map W).sum ≤ (l.map W).sum
  | [] => by simp
  | x :: l => by
    have := filter_weight W p l
    rw [List.filter_cons]
    split <;> simp only [List.map_cons, List.sum_cons] <;> omega

theorem adds_entry {read : Bytes → Except Exn (α × Bytes)} (h : ∀ bs, Feeds W c 0 bs (read bs)) (entries : List (U32 × α))
    (bs : Bytes) : Adds (fun l => (l.map (fun e => 1 + W e.2)).sum) (1 + c) entries bs (csAddEntry read entries bs) := by
  intro v rest hr
  unfold csAddEntry at hr
  have hk := tame_key bs
  cases hkey : csReadKey bs with
  | error e => rw [hkey] at hr; cases hr
  | ok k =>
    obtain ⟨⟨tag, wire⟩, r⟩ := k
    rw [hkey] at hr hk
    have hk : r.length + 1 ≤ bs.length := hk
    simp only [bind, Except.bind] at hr
    cases hx : read r with
    | error e => rw [hx] at hr; cases hr
    | ok x =>
      obtain ⟨x, r'⟩ := x
      rw [hx] at hr
      cases hr
      have h1 := h r x r' hx
      have h2 := filter_weight (fun e : U32 × α => 1 + W e.2) (fun e => e.1 != tag) entries
      simp only [dictSet, List.map_cons, List.sum_cons, Nat.add_mul, Nat.one_mul]
      have h3 : c * r.length ≤ c * bs.length := Nat.mul_le_mul_left _ (by omega)
      simp only [Nat.add_zero] at h1
      omega

theorem adds_replaceStep {W : σ → Nat} {getWire : U32 → Option WireType}
    {replaceAt : U32 → WireType → Bytes → σ → Except Exn (σ × Bytes)}
    (h : ∀ tag wire bs v v' rest, replaceAt tag wire bs v = .ok (v', rest) → rest.length ≤ bs.length ∧
      W v' + c * rest.length ≤ W v + c * (bs.length + 1))
    (v : σ) (bs : Bytes) : Adds W c v bs (csReplaceStep getWire replaceAt v bs) := by
  intro v' rest hr
  unfold csReplaceStep at hr
  have hk := tame_key bs
  cases hkey : csReadKey bs with
  | error e => rw [hkey] at hr; cases hr
  | ok k =>
    obtain ⟨⟨tag, wire⟩, r⟩ := k
    rw [hkey] at hr hk
    have hk : r.length + 1 ≤ bs.length := hk
    simp only [bind, Except.bind] at hr
    cases wire with
    | sized =>
      have h1 := tame_nested r
      simp only at hr
      cases hg : csGetNested r with
      | error e => rw [hg] at hr; cases hr
      | ok g =>
        obtain ⟨payload, r'⟩ := g
        rw [hg] at hr h1
        simp only at hr h1
        split at hr
        · cases hr
          have : c * rest.length ≤ c * bs.length := Nat.mul_le_mul_left _ (by omega)
          omega
        · cases hx : replaceAt tag .sized payload v with
          | error e => rw [hx] at hr; cases hr
          | ok x =>
            rw [hx] at hr
            cases hr
            have h2 := (h _ _ _ _ _ _ hx).2
            have h3 : c * (payload.length + 1 + rest.length) ≤ c * bs.length := Nat.mul_le_mul_left _ (by omega)
            rw [Nat.mul_add] at h3
            omega
    | varint =>
      simp only at hr
      split at hr
      · have h1 := tame_skip .varint r
        cases hs : csSkipField .varint r with
        | error e => rw [hs] at hr; cases hr
        | ok r' =>
          rw [hs] at hr h1
          cases hr
          simp only at h1
          have : c * rest.length ≤ c * bs.length := Nat.mul_le_mul_left _ (by omega)
          omega
      · have h2 := (h _ _ _ _ _ _ hr).2
        have h3 : c * (r.length + 1) ≤ c * bs.length := Nat.mul_le_mul_left _ (by omega)
        omega

/-- An object around what a loop read. -/
theorem around {w c n : Nat} (h : w ≤ c * n) : 1 + w ≤ (1 + c) * (n + 1) := by
  rw [Nat.add_mul, Nat.mul_add c]; omega

end

/-- What reading a value costs. -/
def FeedsTy (ρ : Bytes → Str) (t : Ty) : Prop :=
  ∀ bs, Feeds (csWeight t) (csGrowth t) (if t.isCsState || t.isCsString then 1 else 0) bs (t.csDeserialize ρ bs)

theorem feeds_prim {α : Type} {bs : Bytes} {r : Except Exn (α × Bytes)} (h : Tame bs 1 r) : Feeds (fun _ => 1) 1 0 bs r := by
  intro v rest hr
  rw [hr] at h
  have h : rest.length + 1 ≤ bs.length := h
  exact ⟨by omega, by show 1 + 1 * _ ≤ 1 * _; omega⟩

theorem feeds_items {ρ : Bytes → Str} {t : Ty} (h : FeedsTy ρ t) (bs : Bytes) :
    Feeds (fun v => 1 + (v.map (csWeight t)).sum) (1 + csGrowth t) 1 bs (do
      let items ← untilEnd (csAddItem (csNested (t.isCsState || t.isCsString) (fun bs => t.csDeserialize ρ bs))) bs.length [] bs
      .ok (items, [])) := by
  intro v rest hr
  simp only [bind, Except.bind] at hr
  split at hr
  · cases hr
  · rename_i x hx
    cases hr
    have := adds_loop (adds_item (feeds_nested h)) bs.length [] bs hx
    simp only [List.map_nil, List.sum_nil, Nat.zero_add] at this
    exact ⟨Nat.zero_le _, by simpa using around this⟩

mutual
theorem csWeight_new : (t : Ty) → csWeight t t.csNew ≤ csGrowth t
  | .uint _ => Nat.le_refl _
  | .sint _ => Nat.le_refl _
  | .bool => Nat.le_refl _
  | .string => (by decide : 1 ≤ 3)
  | .bytes => Nat.le_refl _
  | .vec t => Nat.le_add_right 1 _
  | .array _ t => Nat.le_add_right 1 _
  | .tuple _ => Nat.le_refl _
  | .option t => Nat.le_add_right 1 _
  | .box t => csWeight_new t
  | .hashMap _ _ => Nat.le_refl _
  | .list t => Nat.le_add_right 1 _
  | .map _ t => Nat.le_add_right 1 _
  | .struct _ _ fs => Nat.add_le_add_left (csWeight_newFields fs) 1
  | .enum _ _ fs vs => by
    have := csWeight_newFields fs
    simp only [csWeight, Ty.csNew, csGrowth]
    omega

theorem csWeight_newFields : (fs : Fields) → csWeightFields fs fs.csNew ≤ csGrowthFields fs
  | .nil => Nat.le_refl _
  | .cons _ _ t fs => Nat.add_le_add (csWeight_new t) (csWeight_newFields fs)
end

mutual
theorem csGrowth_pos : (t : Ty) → 1 ≤ csGrowth t
  | .uint _ => Nat.le_refl _
  | .sint _ => Nat.le_refl _
  | .bool => Nat.le_refl _
  | .string => (by decide : 1 ≤ 3)
  | .bytes => Nat.le_refl _
  | .vec t => Nat.le_add_right 1 _
  | .array _ t => Nat.le_add_right 1 _
  | .tuple _ => Nat.le_refl _
  | .option t => Nat.le_add_right 1 _
  | .box t => csGrowth_pos t
  | .hashMap _ _ => Nat.le_refl _
  | .list t => Nat.le_add_right 1 _
  | .map _ t => Nat.le_add_right 1 _
  | .struct _ _ fs => Nat.le_add_right 1 _
  | .enum _ _ fs vs => by simp only [csGrowth]; omega
end

theorem getString_weight {ρ : Bytes → Str} (hρ : Replaces ρ) (bs : Bytes) : (csGetString ρ bs).bytes.length ≤ 3 * bs.length := by
  unfold csGetString
  split
  · show bs.length ≤ _; omega
  · exact hρ bs

mutual
theorem feedsTy {ρ : Bytes → Str} (hρ : Replaces ρ) : (t : Ty) → FeedsTy ρ t
  | .uint w => fun bs => feeds_prim (tame_uint w bs)
  | .sint w => fun bs => feeds_prim (tame_sint w bs)
  | .bool => fun bs => feeds_prim (tame_bool bs false)
  | .string => fun bs v rest h => by
    cases h
    have := getString_weight hρ bs
    refine ⟨Nat.zero_le _, ?_⟩
    simp only [csWeight, csGrowth, Option.toList_some, List.map_cons, List.map_nil, List.sum_cons, List.sum_nil,
      List.length_nil, Ty.isCsState, Ty.isCsString, Bool.or_true, if_true]
    omega
  | .bytes => fun bs v rest h => by
    cases h
    refine ⟨Nat.zero_le _, ?_⟩
    simp only [csWeight, csGrowth, List.length_nil, Ty.isCsState, Bool.true_or, if_true]
    omega
  | .vec t => fun bs => feeds_items (feedsTy hρ t) bs
  | .array _ t => fun bs => feeds_items (feedsTy hρ t) bs
  | .tuple _ => fun _ _ _ h => by cases h
  | .option t => fun bs v rest h => by
    simp only [Ty.csDeserialize] at h
    simp only [csWeight, csGrowth, Ty.isCsState, Bool.true_or, if_true]
    split at h
    · cases h
      refine ⟨Nat.zero_le _, ?_⟩
      simp only [Option.toList_none, List.map_nil, List.sum_nil, List.length_nil, Nat.mul_zero, Nat.add_zero]
      exact around (Nat.zero_le _)
    · simp only [bind, Except.bind] at h
      split at h
      · cases h
      · rename_i x hx
        obtain ⟨x, r⟩ := x
        cases h
        have h1 := feeds_nested (feedsTy hρ t) bs x r hx
        refine ⟨h1.1, ?_⟩
        simp only [Option.toList_some, List.map_cons, List.map_nil, List.sum_cons, List.sum_nil, Nat.add_mul, Nat.mul_add]
        simp only [Nat.add_zero] at h1
        omega
  | .box t => feedsTy hρ t
  | .hashMap _ _ => fun _ _ _ h => by cases h
  | .list t => fun bs => feeds_items (feedsTy hρ t) bs
  | .map _ t => fun bs v rest h => by
    simp only [Ty.csDeserialize, bind, Except.bind] at h
    split at h
    · cases h
    · rename_i x hx
      cases h
      have := adds_loop (adds_entry (feeds_nested (feedsTy hρ t))) bs.length [] bs hx
      simp only [List.map_nil, List.sum_nil, Nat.zero_add] at this
      refine ⟨Nat.zero_le _, ?_⟩
      simp only [csWeight, csGrowth, Ty.isCsState, Bool.true_or, if_true, List.length_nil, Nat.mul_zero, Nat.add_zero]
      rw [Nat.mul_add]
      omega
  | .struct _ _ fs => fun bs v rest h => by
    simp only [Ty.csDeserialize, bind, Except.bind] at h
    split at h
    · cases h
    · rename_i x hx
      cases h
      have := feedsNew hρ fs hx
      refine ⟨Nat.zero_le _, ?_⟩
      simp only [csWeight, csGrowth, Ty.isCsState, Bool.true_or, if_true, List.length_nil, Nat.mul_zero, Nat.add_zero]
      rw [Nat.add_mul]
      omega
  | .enum _ _ fs vs => fun bs v rest h => by
    simp only [Ty.csDeserialize, bind, Except.bind] at h
    have hk := tame_uint .w32 bs
    simp only [csGrowth, Ty.isCsState, Bool.true_or, if_true]
    split at h
    · cases h
    · rename_i k hkey
      obtain ⟨variant, r⟩ := k
      have hkey : csReadUInt .w32 bs = .ok (variant, r) := hkey
      rw [hkey] at hk
      have hk : r.length + 1 ≤ bs.length := hk
      simp only at h
      have hf : csGrowthFields fs * (r.length + 1) ≤ csGrowthFields fs * (bs.length + 1) := Nat.mul_le_mul_left _ (by omega)
      have hv : csGrowthVariants vs * (r.length + 1) ≤ csGrowthVariants vs * (bs.length + 1) := Nat.mul_le_mul_left _ (by omega)
      split at h
      · split at h
        · cases h
        · rename_i x hx
          cases h
          have := feedsNew hρ fs hx
          refine ⟨Nat.zero_le _, ?_⟩
          simp only [csWeight, List.length_nil, Nat.mul_zero, Nat.add_zero, Nat.add_mul] at this hf hv ⊢
          omega
      · split at h
        · cases h
        · rename_i x hx
          have h1 := feedsVariants hρ vs variant r _ hx
          cases x with
          | some x =>
            cases h
            have := h1 x rfl
            refine ⟨Nat.zero_le _, ?_⟩
            simp only [csWeight, List.length_nil, Nat.mul_zero, Nat.add_zero, Nat.add_mul] at this hf hv ⊢
            omega
          | none =>
            cases h
            have := csWeight_newFields fs
            have h3 : csGrowthFields fs * 1 ≤ csGrowthFields fs * (bs.length + 1) := Nat.mul_le_mul_left _ (by omega)
            refine ⟨Nat.zero_le _, ?_⟩
            simp only [csWeight, List.length_nil, Nat.mul_zero, Nat.add_zero, Nat.add_mul] at this h3 ⊢
            omega

theorem feedsFields {ρ : Bytes → Str} (hρ : Replaces ρ) : (fs : Fields) → ∀ tag wire bs v v' rest,
    fs.csReplaceAt ρ tag wire bs v = .ok (v', rest) → rest.length ≤ bs.length ∧
      csWeightFields fs v' + csGrowthFields fs * rest.length ≤ csWeightFields fs v + csGrowthFields fs * (bs.length + 1)
  | .nil, _, wire, bs, v, v', rest, h => by
    have h1 := tame_skip wire bs
    simp only [Fields.csReplaceAt, bind, Except.bind] at h
    split at h
    · cases h
    · rename_i r hr
      cases h
      rw [hr] at h1
      exact ⟨h1, by simp [csGrowthFields, csWeightFields]⟩
  | .cons tag _ t fs, tag', wire, bs, v, v', rest, h => by
    simp only [Fields.csReplaceAt, bind, Except.bind] at h
    simp only [csGrowthFields, csWeightFields]
    split at h
    · split at h
      · cases h
      · rename_i x hx
        obtain ⟨x, r⟩ := x
        cases h
        have h1 := feedsTy hρ t bs x r hx
        have h2 : csGrowth t * (bs.length + (if t.isCsState || t.isCsString then 1 else 0)) ≤ csGrowth t * (bs.length + 1) :=
          Nat.mul_le_mul_left _ (by split <;> omega)
        have h3 : csGrowthFields fs * r.length ≤ csGrowthFields fs * (bs.length + 1) := Nat.mul_le_mul_left _ (by omega)
        refine ⟨h1.1, ?_⟩
        simp only [Nat.add_mul]
        omega
    · split at h
      · cases h
      · rename_i x hx
        obtain ⟨y, r⟩ := x
        cases h
        have h1 := feedsFields hρ fs tag' wire bs v.2 y r hx
        have h3 : csGrowth t * r.length ≤ csGrowth t * (bs.length + 1) := Nat.mul_le_mul_left _ (by omega)
        refine ⟨h1.1, ?_⟩
        simp only [Nat.add_mul]
        omega

theorem feedsNew {ρ : Bytes → Str} (hρ : Replaces ρ) (fs : Fields) {bs : Bytes} {x : fs.Cs}
    (hx : untilEnd (csReplaceStep fs.csGetWireType (fun tag wire bs v => fs.csReplaceAt ρ tag wire bs v)) bs.length fs.csNew bs =
      .ok x) : csWeightFields fs x ≤ csGrowthFields fs * (bs.length + 1) := by
  have h1 := adds_loop (adds_replaceStep (W := csWeightFields fs) (feedsFields hρ fs)) bs.length fs.csNew bs hx
  have h2 := csWeight_newFields fs
  rw [Nat.mul_add]
  omega

theorem feedsVariants {ρ : Bytes → Str} (hρ : Replaces ρ) : (vs : Variants) → ∀ variant bs r,
    vs.csVariant ρ variant bs = .ok r → ∀ x, r = some x → csWeightVariant vs x ≤ csGrowthVariants vs * (bs.length + 1)
  | .nil, _, _, _, h, x, hx => by cases h; cases hx
  | .cons tag _ fs vs, variant, bs, r, h, x, hx => by
    simp only [Variants.csVariant, bind, Except.bind] at h
    simp only [csGrowthVariants, Nat.add_mul]
    split at h
    · split at h
      · cases h
      · rename_i y hy
        cases h
        cases hx
        have := feedsNew hρ fs hy
        simp only [csWeightVariant]
        omega
    · split at h
      · cases h
      · rename_i y hy
        cases h
        cases y with
        | none => cases hx
        | some y =>
          cases hx
          have := feedsVariants hρ vs variant bs _ hy y rfl
          simp only [csWeightVariant]
          omega
end

theorem feeds_value {ρ : Bytes → Str} (hρ : Replaces ρ) (t : Ty) {bs rest : Bytes} {v : t.Cs}
    (h : t.csDeserialize ρ bs = .ok (v, rest)) : csWeight t v ≤ csGrowth t * (bs.length + 1) := by
  have h1 := (feedsTy hρ t bs v rest h).2
  have h2 : csGrowth t * (bs.length + (if t.isCsState || t.isCsString then 1 else 0)) ≤ csGrowth t * (bs.length + 1) :=
    Nat.mul_le_mul_left _ (by split <;> omega)
  omega

end Steit
