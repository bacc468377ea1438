import Verif.Lemmas.CSharpDecode

/-! # The C# client terminates on arbitrary input -/

namespace Steit
open Spec

/-- The result of a reader: it did not get stuck, and what it leaves is shorter than its input by at least `n` bytes. -/
def Tame {α : Type} (bs : Bytes) (n : Nat) : Except Exn (α × Bytes) → Prop
  | .error e => e ≠ .stuck
  | .ok r => r.2.length + n ≤ bs.length

section
variable {α β : Type}

theorem Tame.weaken {bs : Bytes} {n n' : Nat} {r : Except Exn (α × Bytes)} (h : Tame bs n r) (hn : n' ≤ n) : Tame bs n' r := by
  cases r with
  | error e => exact h
  | ok r => show _ ≤ _; have : _ ≤ _ := h; omega

theorem Tame.bind {bs : Bytes} {n k : Nat} {r : Except Exn (α × Bytes)} {f : α × Bytes → Except Exn (β × Bytes)}
    (h : Tame bs n r) (hf : ∀ x rest, r = .ok (x, rest) → rest.length + n ≤ bs.length → Tame rest k (f (x, rest))) :
    Tame bs (n + k) (r >>= f) := by
  cases hr : r with
  | error e => rw [hr] at h; exact h
  | ok p =>
    obtain ⟨x, rest⟩ := p
    rw [hr] at h
    have h1 : rest.length + n ≤ bs.length := h
    have := hf x rest hr h1
    show Tame bs (n + k) (f (x, rest))
    cases hg : f (x, rest) with
    | error e => rw [hg] at this; exact this
    | ok q => rw [hg] at this; show _ ≤ _; have : _ ≤ _ := this; omega

end

theorem tame_varint : ∀ (bs : Bytes) (v : BitVec 64) (off : Nat), Tame bs 1 (csVarintLoop bs v off)
  | [], _, _ => (by decide : Exn.endOfStream ≠ Exn.stuck)
  | b :: bs, v, off => by
    simp only [csVarintLoop]
    split
    · exact Nat.le_refl _
    · have := tame_varint bs (v ||| ((b &&& 0x7f#8).setWidth 64 <<< (off % 64))) (off + 7)
      cases h : csVarintLoop bs (v ||| ((b &&& 0x7f#8).setWidth 64 <<< (off % 64))) (off + 7) with
      | error e => rw [h] at this; exact this
      | ok r => rw [h] at this; show _ ≤ _; have : _ ≤ _ := this; rw [List.length_cons]; omega

theorem tame_bool : ∀ (bs : Bytes) (v : Bool), Tame bs 1 (csBoolLoop bs v)
  | [], _ => (by decide : Exn.endOfStream ≠ Exn.stuck)
  | b :: bs, v => by
    simp only [csBoolLoop]
    split
    · exact Nat.le_refl _
    · have := tame_bool bs (v || (b &&& 0x7f#8 != 0#8))
      cases h : csBoolLoop bs (v || (b &&& 0x7f#8 != 0#8)) with
      | error e => rw [h] at this; exact this
      | ok r => rw [h] at this; show _ ≤ _; have : _ ≤ _ := this; rw [List.length_cons]; omega

theorem tame_uint (w : Width) (bs : Bytes) : Tame bs 1 (csReadUInt w bs) :=
  Tame.bind (k := 0) (tame_varint bs _ _) fun _ _ _ _ => Nat.le_refl _

theorem tame_sint (w : Width) (bs : Bytes) : Tame bs 1 (csReadSInt w bs) :=
  Tame.bind (k := 0) (Tame.bind (k := 0) (tame_varint bs _ _) fun _ _ _ _ => Nat.le_refl _) fun _ _ _ _ => Nat.le_refl _

theorem tame_key (bs : Bytes) : Tame bs 1 (csReadKey bs) := by
  refine Tame.bind (k := 0) (tame_uint .w32 bs) fun key rest _ _ => ?_
  simp only [csWireType]
  split
  · exact Nat.le_refl _
  · split
    · exact Nat.le_refl _
    · exact (by decide : Exn.argument ≠ Exn.stuck)

theorem tame_nested (bs : Bytes) : match csGetNested bs with
    | .error e => e ≠ .stuck
    | .ok (payload, rest) => payload.length + rest.length + 1 ≤ bs.length := by
  have h := tame_uint .w32 bs
  unfold csGetNested csReadSize
  have hd : csReadUInt32 bs = csReadUInt .w32 bs := rfl
  rw [hd]
  cases hr : csReadUInt .w32 bs with
  | error e => rw [hr] at h; exact h
  | ok r =>
    rw [hr] at h
    have h1 : r.2.length + 1 ≤ bs.length := h
    simp only [bind, Except.bind]
    unfold csTake
    split
    · rename_i heq
      split at heq
      · cases heq; decide
      · split at heq
        · cases heq; decide
        · cases heq
    · rename_i payload rest heq
      split at heq
      · cases heq
      · split at heq
        · cases heq
        · rename_i h2 h3
          simp only [Except.ok.injEq, Prod.mk.injEq] at heq
          obtain ⟨rfl, rfl⟩ := heq
          rw [List.length_take, List.length_drop]
          omega

theorem tame_skip (w : WireType) (bs : Bytes) : match csSkipField w bs with
    | .error e => e ≠ .stuck
    | .ok rest => rest.length ≤ bs.length := by
  cases w with
  | sized => exact Nat.zero_le _
  | varint =>
    have h := tame_bool bs false
    simp only [csSkipField, csReadBoolean]
    cases hr : csBoolLoop bs false with
    | error e => rw [hr] at h; exact h
    | ok r => rw [hr] at h; have : r.2.length + 1 ≤ bs.length := h; show r.2.length ≤ _; omega

section loops
variable {σ : Type} {S : σ → Bytes → Except Exn (σ × Bytes)}

/-- A loop whose body consumes input never runs out of fuel. -/
theorem untilEnd_total (hS : ∀ v bs, bs ≠ [] → Tame bs 1 (S v bs)) :
    ∀ (n : Nat) (v : σ) (bs : Bytes), bs.length ≤ n → untilEnd S n v bs ≠ .error .stuck
  | n, v, [], _ => by rw [untilEnd_nil]; exact fun h => by cases h
  | 0, v, b :: bs, h => by simp at h
  | n + 1, v, b :: bs, h => by
    have := hS v (b :: bs) (by simp)
    simp only [untilEnd, bind, Except.bind]
    cases hr : S v (b :: bs) with
    | error e => rw [hr] at this; simp only; intro he; cases he; exact this rfl
    | ok r =>
      rw [hr] at this
      have h1 : r.2.length + 1 ≤ (b :: bs).length := this
      rw [List.length_cons] at h h1
      exact untilEnd_total hS n _ _ (by omega)

/-- Nor does it matter how much there is of it. -/
theorem untilEnd_fuel (hS : ∀ v bs, bs ≠ [] → Tame bs 1 (S v bs)) :
    ∀ (n n' : Nat) (v : σ) (bs : Bytes), bs.length ≤ n → bs.length ≤ n' → untilEnd S n v bs = untilEnd S n' v bs
  | n, n', v, [], _, _ => by rw [untilEnd_nil, untilEnd_nil]
  | 0, _, v, b :: bs, h, _ => by simp at h
  | _, 0, v, b :: bs, _, h => by simp at h
  | n + 1, n' + 1, v, b :: bs, h, h' => by
    have := hS v (b :: bs) (by simp)
    simp only [untilEnd, bind, Except.bind]
    cases hr : S v (b :: bs) with
    | error e => rfl
    | ok r =>
      rw [hr] at this
      have h1 : r.2.length + 1 ≤ (b :: bs).length := this
      rw [List.length_cons] at h h' h1
      exact untilEnd_fuel hS n n' _ _ (by omega) (by omega)

/-- What was eaten may be dropped. -/
theorem Eats.drop (hS : ∀ v bs, bs ≠ [] → Tame bs 1 (S v bs)) {a b : σ} {bs : Bytes} (h : Eats S a bs b) (rest : Bytes) :
    untilEnd S (bs ++ rest).length a (bs ++ rest) = untilEnd S rest.length b rest := by
  obtain ⟨n, hn, h⟩ := h rest
  have := h ((bs ++ rest).length - n)
  rw [List.length_append, Nat.add_sub_cancel' (by omega)] at this
  rw [List.length_append, this]
  exact untilEnd_fuel hS _ _ _ _ (by omega) (Nat.le_refl _)

theorem tame_loop {α : Type} (hS : ∀ v bs, bs ≠ [] → Tame bs 1 (S v bs)) (v : σ) (bs : Bytes) (f : σ → α) :
    Tame bs 0 (do
      let x ← untilEnd S bs.length v bs
      .ok (f x, []) : Except Exn (α × Bytes)) := by
  have := untilEnd_total hS bs.length v bs (Nat.le_refl _)
  cases h : untilEnd S bs.length v bs with
  | error e => rw [h] at this; exact fun he => this (by rw [he])
  | ok x => exact Nat.zero_le _

end loops

theorem tame_csNested {α : Type} {sized : Bool} {read : Bytes → Except Exn (α × Bytes)}
    (h : ∀ bs, Tame bs (if sized then 0 else 1) (read bs)) (bs : Bytes) : Tame bs 1 (csNested sized read bs) := by
  unfold csNested
  cases sized with
  | false => exact h bs
  | true =>
    have h1 := tame_nested bs
    simp only [if_true]
    cases hr : csGetNested bs with
    | error e => rw [hr] at h1; exact h1
    | ok r =>
      rw [hr] at h1
      have h2 := h r.1
      simp only [bind, Except.bind]
      cases hx : read r.1 with
      | error e => rw [hx] at h2; exact h2
      | ok x => show r.2.length + 1 ≤ bs.length; omega

theorem tame_replaceStep {σ : Type} {getWire : U32 → Option WireType}
    {replaceAt : U32 → WireType → Bytes → σ → Except Exn (σ × Bytes)} (h : ∀ tag wire bs v, Tame bs 0 (replaceAt tag wire bs v))
    (v : σ) (bs : Bytes) : Tame bs 1 (csReplaceStep getWire replaceAt v bs) := by
  refine Tame.bind (k := 0) (tame_key bs) fun key rest _ _ => ?_
  obtain ⟨tag, wire⟩ := key
  cases wire with
  | sized =>
    have h1 := tame_nested rest
    simp only
    cases hr : csGetNested rest with
    | error e => rw [hr] at h1; exact h1
    | ok r =>
      rw [hr] at h1
      simp only [bind, Except.bind]
      split
      · show r.2.length + 0 ≤ _; omega
      · have h2 := h tag .sized r.1 v
        cases hx : replaceAt tag .sized r.1 v with
        | error e => rw [hx] at h2; exact h2
        | ok x => show r.2.length + 0 ≤ _; omega
  | varint =>
    simp only
    split
    · have h1 := tame_skip .varint rest
      cases hr : csSkipField .varint rest with
      | error e => rw [hr] at h1; exact h1
      | ok r => rw [hr] at h1; exact h1
    · exact h tag .varint rest v

/-- What reading a value leaves. -/
def TameTy (ρ : Bytes → Str) (t : Ty) : Prop := ∀ bs, Tame bs (if t.isCsState || t.isCsString then 0 else 1) (t.csDeserialize ρ bs)

theorem tame_addItem {ρ : Bytes → Str} {t : Ty} (h : TameTy ρ t) (items : List t.Cs) (bs : Bytes) :
    Tame bs 1 (csAddItem (csNested (t.isCsState || t.isCsString) (fun bs => t.csDeserialize ρ bs)) items bs) :=
  Tame.bind (k := 0) (tame_csNested h bs) fun _ _ _ _ => Nat.le_refl _

theorem tame_addEntry {ρ : Bytes → Str} {t : Ty} (h : TameTy ρ t) (entries : List (U32 × t.Cs)) (bs : Bytes) :
    Tame bs 1 (csAddEntry (csNested (t.isCsState || t.isCsString) (fun bs => t.csDeserialize ρ bs)) entries bs) := by
  refine (Tame.bind (k := 1) (tame_key bs) fun key rest _ _ => ?_).weaken (by decide)
  exact Tame.bind (k := 0) (tame_csNested h rest) fun _ _ _ _ => Nat.le_refl _

mutual
theorem tameTy (ρ : Bytes → Str) : (t : Ty) → TameTy ρ t
  | .uint w => tame_uint w
  | .sint w => tame_sint w
  | .bool => fun bs => tame_bool bs false
  | .string => fun _ => Nat.zero_le _
  | .bytes => fun _ => Nat.zero_le _
  | .vec t => fun bs => tame_loop (fun v bs _ => tame_addItem (tameTy ρ t) v bs) [] bs id
  | .array _ t => fun bs => tame_loop (fun v bs _ => tame_addItem (tameTy ρ t) v bs) [] bs id
  | .tuple _ => fun _ => (by decide : Exn.notSupported ≠ Exn.stuck)
  | .option t => fun bs => by
    show Tame bs 0 ((Ty.option t).csDeserialize ρ bs)
    simp only [Ty.csDeserialize]
    split
    · exact Nat.zero_le _
    · exact (Tame.bind (k := 0) (tame_csNested (tameTy ρ t) bs) fun _ _ _ _ => Nat.le_refl _).weaken (Nat.zero_le _)
  | .box t => tameTy ρ t
  | .hashMap _ _ => fun _ => (by decide : Exn.notSupported ≠ Exn.stuck)
  | .list t => fun bs => tame_loop (fun v bs _ => tame_addItem (tameTy ρ t) v bs) [] bs id
  | .map _ t => fun bs => tame_loop (fun v bs _ => tame_addEntry (tameTy ρ t) v bs) [] bs id
  | .struct _ _ fs => fun bs => tame_loop (fun v bs _ => tame_replaceStep (tameFields ρ fs) v bs) fs.csNew bs id
  | .enum _ _ fs vs => fun bs => by
    show Tame bs 0 ((Ty.enum _ _ fs vs).csDeserialize ρ bs)
    refine (Tame.bind (k := 0) (tame_uint .w32 bs) fun variant rest _ _ => ?_).weaken (Nat.zero_le _)
    simp only
    split
    · exact tame_loop (fun v bs _ => tame_replaceStep (tameFields ρ fs) v bs) fs.csNew rest Sum.inl
    · have := tameVariants ρ vs variant rest
      cases hr : vs.csVariant ρ variant rest with
      | error e => rw [hr] at this; exact fun h => this (by rw [h])
      | ok r => cases r <;> exact Nat.zero_le _

theorem tameFields (ρ : Bytes → Str) : (fs : Fields) → ∀ tag wire bs v, Tame bs 0 (fs.csReplaceAt ρ tag wire bs v)
  | .nil, _, wire, bs, v => by
    have h1 := tame_skip wire bs
    simp only [Fields.csReplaceAt]
    cases hr : csSkipField wire bs with
    | error e => rw [hr] at h1; exact h1
    | ok r => rw [hr] at h1; exact h1
  | .cons tag _ t fs, tag', wire, bs, v => by
    simp only [Fields.csReplaceAt]
    split
    · exact Tame.bind (n := 0) (k := 0) ((tameTy ρ t bs).weaken (Nat.zero_le _)) fun _ _ _ _ => Nat.le_refl _
    · exact Tame.bind (n := 0) (k := 0) (tameFields ρ fs tag' wire bs v.2) fun _ _ _ _ => Nat.le_refl _

theorem tameVariants (ρ : Bytes → Str) : (vs : Variants) → ∀ variant bs, vs.csVariant ρ variant bs ≠ .error .stuck
  | .nil, _, _ => fun h => by cases h
  | .cons tag _ fs vs, variant, bs => by
    simp only [Variants.csVariant]
    split
    · have := untilEnd_total (S := csReplaceStep fs.csGetWireType (fun tag wire bs v => fs.csReplaceAt ρ tag wire bs v))
        (fun v bs _ => tame_replaceStep (tameFields ρ fs) v bs) bs.length fs.csNew bs (Nat.le_refl _)
      simp only [bind, Except.bind]
      split
      · rename_i e he; rw [he] at this; exact fun h => this (by cases h; rfl)
      · exact fun h => by cases h
    · have := tameVariants ρ vs variant bs
      simp only [bind, Except.bind]
      split
      · rename_i e he; rw [he] at this; exact fun h => this (by cases h; rfl)
      · exact fun h => by cases h
end

end Steit
