import Verif.Lemmas.CSharpTotal

/-! # Replay in C# terminates on arbitrary input -/

namespace Steit
open Spec

/-- Not the mark of a loop without end. -/
def Ends {α : Type} (r : Except Exn α) : Prop := r ≠ .error .stuck

theorem Ends.ok {α : Type} (x : α) : Ends (.ok x) := fun h => by cases h

theorem Ends.error {α : Type} {e : Exn} (h : e ≠ .stuck) : Ends (.error e : Except Exn α) := fun h' => by cases h'; exact h rfl

theorem Ends.bind {α β : Type} {r : Except Exn α} {f : α → Except Exn β} (h : Ends r) (hf : ∀ x, Ends (f x)) : Ends (r >>= f) := by
  cases r with
  | error e => exact fun h' => h (by cases h'; rfl)
  | ok x => exact hf x

theorem Tame.ends {α : Type} {bs : Bytes} {n : Nat} {r : Except Exn (α × Bytes)} (h : Tame bs n r) : Ends r := by
  cases r with
  | error e => exact .error h
  | ok x => exact .ok x

theorem ends_de (ρ : Bytes → Str) (t : Ty) (bs : Bytes) : Ends (t.csDeserialize ρ bs) := (tameTy ρ t bs).ends

theorem ends_fieldsPerform (ρ : Bytes → Str) (fs : Fields) (act : CsAct) (v : fs.Cs) : Ends (fs.csPerform ρ act v) := by
  unfold Fields.csPerform
  split
  · split
    · exact .ok _
    · exact .bind (tameFields ρ fs _ _ _ v).ends fun _ => .ok _
  · exact .error (by decide)

theorem ends_perform (ρ : Bytes → Str) (t : Ty) (act : CsAct) (v : t.Cs) : Ends (t.csPerform ρ act v) := by
  induction t using Ty.isCsState.induct with
  | case1 => cases act <;> first | exact .ok _ | exact .error (by decide)
  | case2 => cases act <;> first | exact .ok _ | exact .error (by decide)
  | case3 => cases act <;> first | exact .ok _ | exact .error (by decide)
  | case4 => cases act <;> first | exact .ok _ | exact .error (by decide)
  | case5 t ih => exact ih v
  | case6 t h1 h2 h3 h4 h5 =>
    cases t with
    | list t =>
      cases act with
      | update tag value =>
        simp only [Ty.csPerform]
        split
        · exact .error (by decide)
        · exact .bind (ends_de ρ t value) fun _ => .ok _
      | push item => exact .bind (ends_de ρ t item) fun _ => .ok _
      | pop =>
        simp only [Ty.csPerform]
        split
        · exact .error (by decide)
        · exact .ok _
      | remove key => exact .error (by decide)
    | map k t =>
      cases act with
      | update tag value => exact .bind (ends_de ρ t value) fun _ => .ok _
      | push item => exact .error (by decide)
      | pop => exact .error (by decide)
      | remove key =>
        simp only [Ty.csPerform]
        split
        · exact .error (by decide)
        · exact .ok _
    | struct ds c fs => exact ends_fieldsPerform ρ fs act v
    | enum ds c fs vs =>
      cases act with
      | update tag value =>
        simp only [Ty.csPerform]
        split
        · exact .bind (ends_de ρ (.struct false false fs) value) fun _ => .ok _
        · refine .bind (tameVariants ρ vs tag value) fun x => ?_
          cases x <;> exact .ok _
      | push item => exact .error (by decide)
      | pop => exact .error (by decide)
      | remove key => exact .error (by decide)
    | box t => exact absurd rfl (h5 t)
    | _ => cases act <;> first | exact .ok _ | exact .error (by decide)

theorem ends_descend {β : Type} {perform : β → Except Exn β} {below : U32 → List U32 → β → Except Exn β}
    (hp : ∀ v, Ends (perform v)) (hb : ∀ k path v, Ends (below k path v)) (path : List U32) (v : β) :
    Ends (descend perform below path v) := by
  cases path with
  | nil => exact hp v
  | cons k path => exact hb k path v

mutual
theorem ends_below (ρ : Bytes → Str) (act : CsAct) : (t : Ty) → ∀ k path v, Ends (t.csBelow ρ act k path v)
  | .list t, k, path, v => by
    simp only [Ty.csBelow]
    split
    · split
      · exact .ok _
      · exact .bind (ends_descend (ends_perform ρ t act) (ends_below ρ act t) _ _) fun _ => .ok _
    · exact .ok _
  | .map _ t, k, path, v => by
    simp only [Ty.csBelow]
    split
    · split
      · exact .ok _
      · exact .bind (ends_descend (ends_perform ρ t act) (ends_below ρ act t) _ _) fun _ => .ok _
    · exact .ok _
  | .struct _ _ fs, k, path, v => ends_fieldsBelow ρ act fs k path v
  | .enum _ _ fs vs, k, path, v => by
    cases v with
    | inl x =>
      simp only [Ty.csBelow]
      split
      · exact .bind (ends_descend (ends_fieldsPerform ρ fs act) (ends_fieldsBelow ρ act fs) _ _) fun _ => .ok _
      · exact .ok _
    | inr x => exact .bind (ends_variantsBelow ρ act vs k path x) fun _ => .ok _
  | .box t, k, path, v => ends_below ρ act t k path v
  | .uint _, _, _, _ => .ok _
  | .sint _, _, _, _ => .ok _
  | .bool, _, _, _ => .ok _
  | .string, _, _, _ => .ok _
  | .bytes, _, _, _ => .ok _
  | .vec _, _, _, _ => .ok _
  | .array _ _, _, _, _ => .ok _
  | .tuple _, _, _, _ => .ok _
  | .option _, _, _, _ => .ok _
  | .hashMap _ _, _, _, _ => .ok _

theorem ends_fieldsBelow (ρ : Bytes → Str) (act : CsAct) : (fs : Fields) → ∀ k path v, Ends (fs.csBelow ρ act k path v)
  | .nil, _, _, _ => .ok _
  | .cons tag _ t fs, k, path, v => by
    simp only [Fields.csBelow]
    split
    · split
      · exact .bind (ends_descend (ends_perform ρ t act) (ends_below ρ act t) _ _) fun _ => .ok _
      · exact .ok _
    · exact .bind (ends_fieldsBelow ρ act fs k path v.2) fun _ => .ok _

theorem ends_variantsBelow (ρ : Bytes → Str) (act : CsAct) : (vs : Variants) → ∀ k path v, Ends (vs.csBelow ρ act k path v)
  | .nil, _, _, _ => .ok _
  | .cons tag _ fs vs, k, path, v => by
    cases v with
    | inl x =>
      simp only [Variants.csBelow]
      split
      · exact .bind (ends_descend (ends_fieldsPerform ρ fs act) (ends_fieldsBelow ρ act fs) _ _) fun _ => .ok _
      · exact .ok _
    | inr x => exact .bind (ends_variantsBelow ρ act vs k path x) fun _ => .ok _
end

theorem ends_replayEntry (ρ : Bytes → Str) (t : Ty) (v : t.Cs) (e : Entry) : Ends (t.csReplayEntry ρ v e) := by
  cases e with
  | update path value =>
    simp only [Ty.csReplayEntry]
    split
    · exact .bind (ends_de ρ t value) fun _ => .ok _
    · exact ends_descend (ends_perform ρ t _) (ends_below ρ _ t) _ _
  | listPush path item => exact ends_descend (ends_perform ρ t _) (ends_below ρ _ t) _ _
  | listPop path => exact ends_descend (ends_perform ρ t _) (ends_below ρ _ t) _ _
  | mapRemove path key => exact ends_descend (ends_perform ρ t _) (ends_below ρ _ t) _ _

theorem tame_replayStep (ρ : Bytes → Str) (t : Ty) (v : t.Cs) (bs : Bytes) : Tame bs 1 (t.csReplayStep ρ v bs) := by
  have h1 := tame_nested bs
  unfold Ty.csReplayStep
  cases hr : csGetNested bs with
  | error e => rw [hr] at h1; exact h1
  | ok r =>
    rw [hr] at h1
    have h2 := ends_de ρ logEntryTy r.1
    simp only [bind, Except.bind]
    cases hd : logEntryTy.csDeserialize ρ r.1 with
    | error e => rw [hd] at h2; exact fun h => h2 (by rw [h])
    | ok x =>
      simp only
      have h3 := ends_replayEntry ρ t v (Entry.ofCs x.1)
      cases he : t.csReplayEntry ρ v (Entry.ofCs x.1) with
      | error e => rw [he] at h3; exact fun h => h3 (by rw [h])
      | ok v' => show r.2.length + 1 ≤ bs.length; omega

end Steit
