import Verif.Lemmas.ClassesReplay

/-!
# Running classes: logs
-/

namespace Steit.Gen

open Steit.Gen.Spec Steit.Spec

/-- Bytes and vectors are no longer than `L`. -/
def Short (L : Nat) : (t : Ty) → t.Cs → Prop
  | .bytes, v => v.length ≤ L
  | .vec _, v => v.length ≤ L
  | _, _ => True

/-- The same for fields. -/
def ShortFields (L : Nat) : (fs : Fields) → fs.Cs → Prop
  | .nil, _ => True
  | .cons _ _ t fs, v => Short L t v.1 ∧ ShortFields L fs v.2

/-- The same for variants. -/
def ShortVariants (L : Nat) : (vs : Variants) → vs.Cs → Prop
  | .nil, _ => True
  | .cons _ _ fs vs, v => match v with
    | .inl x => ShortFields L fs x
    | .inr x => ShortVariants L vs x

theorem untilEnd_items {α : Type} {read : Bytes → Except Exn (α × Bytes)} (ht : ∀ v bs, Tame bs 1 (csAddItem read v bs)) :
    ∀ (n : Nat) (xs : List α) (bs : Bytes) {ys : List α}, untilEnd (csAddItem read) n xs bs = .ok ys → ys.length ≤ xs.length + bs.length
  | n, xs, [], ys, h => by
    have : xs = ys := by cases n <;> (simp only [untilEnd, Except.ok.injEq] at h; exact h)
    subst this; simp
  | 0, _, _ :: _, _, h => by cases h
  | n + 1, xs, b :: bs, ys, h => by
    have h1 := ht xs (b :: bs)
    simp only [untilEnd, bind, Except.bind] at h
    cases hr : csAddItem read xs (b :: bs) with
    | error e => rw [hr] at h; cases h
    | ok r =>
      obtain ⟨xs', rest⟩ := r
      rw [hr] at h h1
      have h1 : rest.length + 1 ≤ (b :: bs).length := h1
      have := untilEnd_items ht n xs' rest h
      have hl : xs'.length = xs.length + 1 := by
        simp only [csAddItem, bind, Except.bind] at hr
        cases hrd : read (b :: bs) with
        | error e => rw [hrd] at hr; cases hr
        | ok q => rw [hrd] at hr; cases hr; simp
      omega

theorem short_read (ρ : Bytes → Str) {L : Nat} : ∀ {t : Ty} {bs : Bytes} {v : t.Cs} {rest : Bytes}, bs.length ≤ L → t.csDeserialize ρ bs = .ok (v, rest) →
    Short L t v
  | .bytes, bs, v, rest, hl, h => by cases h; exact hl
  | .vec t, bs, v, rest, hl, h => by
    simp only [Ty.csDeserialize, bind, Except.bind] at h
    cases hu : untilEnd (csAddItem (csNested (t.isCsState || t.isCsString) (fun bs => t.csDeserialize ρ bs))) bs.length [] bs with
    | error e => rw [hu] at h; cases h
    | ok xs =>
      rw [hu] at h; cases h
      have := untilEnd_items (fun v bs => tame_addItem (tameTy ρ t) v bs) _ _ _ hu
      simp only [List.length_nil] at this
      show v.length ≤ L
      omega
  | .uint _, _, _, _, _, _ | .sint _, _, _, _, _, _ | .bool, _, _, _, _, _ | .string, _, _, _, _, _ | .array _ _, _, _, _, _, _
  | .tuple _, _, _, _, _, _ | .option _, _, _, _, _, _ | .box _, _, _, _, _, _ | .hashMap _ _, _, _, _, _, _ | .list _, _, _, _, _, _
  | .map _ _, _, _, _, _, _ | .struct _ _ _, _, _, _, _, _ | .enum _ _ _ _, _, _, _, _, _ => trivial

theorem short_new (L : Nat) : ∀ fs : Fields, ShortFields L fs fs.csNew
  | .nil => trivial
  | .cons _ _ t fs => ⟨by cases t <;> first | trivial | exact Nat.zero_le _, short_new L fs⟩

theorem short_replaceAt (ρ : Bytes → Str) {L : Nat} : ∀ {fs : Fields} {tag : U32} {wire : WireType} {bs rest : Bytes} {v v' : fs.Cs}, bs.length ≤ L →
    ShortFields L fs v → fs.csReplaceAt ρ tag wire bs v = .ok (v', rest) → ShortFields L fs v'
  | .nil, _, _, _, _, _, _, _, _, _ => trivial
  | .cons tag' _ t fs, tag, wire, bs, rest, v, v', hl, hs, h => by
    simp only [Fields.csReplaceAt, bind, Except.bind] at h
    split at h
    · cases hr : t.csDeserialize ρ bs with
      | error e => rw [hr] at h; cases h
      | ok r => obtain ⟨x, q⟩ := r; rw [hr] at h; cases h; exact ⟨short_read ρ hl hr, hs.2⟩
    · cases hr : fs.csReplaceAt ρ tag wire bs v.2 with
      | error e => rw [hr] at h; cases h
      | ok r => obtain ⟨x, q⟩ := r; rw [hr] at h; cases h; exact ⟨hs.1, short_replaceAt ρ hl hs.2 hr⟩

theorem short_step (ρ : Bytes → Str) {L : Nat} {fs : Fields} {bs rest : Bytes} {v v' : fs.Cs} (hl : bs.length ≤ L) (hs : ShortFields L fs v)
    (h : csReplaceStep fs.csGetWireType (fun tag wire bs v => fs.csReplaceAt ρ tag wire bs v) v bs = .ok (v', rest)) : ShortFields L fs v' := by
  unfold csReplaceStep at h
  have hk := tame_key bs
  simp only [bind, Except.bind] at h
  cases hr' : csReadKey bs with
  | error e => rw [hr'] at h; cases h
  | ok r =>
    obtain ⟨⟨tag, w⟩, rest'⟩ := r
    rw [hr'] at hk h
    have hk : rest'.length + 1 ≤ bs.length := hk
    cases w with
    | sized =>
      simp only at h
      have hne := tame_nested rest'
      cases hg : csGetNested rest' with
      | error e => rw [hg] at h; cases h
      | ok p =>
        obtain ⟨payload, q⟩ := p
        rw [hg] at hne h
        have hne : payload.length + q.length + 1 ≤ rest'.length := hne
        simp only at h
        split at h
        · cases h; exact hs
        · cases hc : fs.csReplaceAt ρ tag .sized payload v with
          | error e => rw [hc] at h; cases h
          | ok r => obtain ⟨y, q'⟩ := r; rw [hc] at h; cases h; exact short_replaceAt ρ (by omega) hs hc
    | varint =>
      simp only at h
      split at h
      · cases hc : csSkipField .varint rest' with
        | error e => rw [hc] at h; cases h
        | ok r => rw [hc] at h; cases h; exact hs
      · exact short_replaceAt ρ (by omega) hs h

theorem short_loop (ρ : Bytes → Str) {L : Nat} {fs : Fields} : ∀ (n : Nat) (v : fs.Cs) (bs : Bytes) {v' : fs.Cs}, bs.length ≤ L → ShortFields L fs v →
    untilEnd (csReplaceStep fs.csGetWireType (fun tag wire bs v => fs.csReplaceAt ρ tag wire bs v)) n v bs = .ok v' → ShortFields L fs v'
  | n, v, [], v', _, hs, h => by
    have : v = v' := by cases n <;> (simp only [untilEnd, Except.ok.injEq] at h; exact h)
    subst this; exact hs
  | 0, _, _ :: _, _, _, _, h => by cases h
  | n + 1, v, b :: bs, v', hl, hs, h => by
    have h1 := tame_replaceStep (getWire := fs.csGetWireType) (tameFields ρ fs) v (b :: bs)
    simp only [untilEnd, bind, Except.bind] at h
    cases hr : csReplaceStep fs.csGetWireType (fun tag wire bs v => fs.csReplaceAt ρ tag wire bs v) v (b :: bs) with
    | error e => rw [hr] at h; cases h
    | ok r =>
      obtain ⟨w, rest⟩ := r
      rw [hr] at h
      rw [show csReplaceStep fs.csGetWireType (fs.csReplaceAt ρ) v (b :: bs) = _ from hr] at h1
      have h1 : rest.length + 1 ≤ (b :: bs).length := h1
      exact short_loop ρ n w rest (by omega) (short_step ρ hl hs hr) h

theorem short_variant (ρ : Bytes → Str) {L : Nat} : ∀ {vs : Variants} {tag : U32} {bs : Bytes} {v : vs.Cs}, bs.length ≤ L →
    vs.csVariant ρ tag bs = .ok (some v) → ShortVariants L vs v
  | .nil, _, _, _, _, h => by cases h
  | .cons tag' _ fs vs, tag, bs, v, hl, h => by
    simp only [Variants.csVariant, bind, Except.bind] at h
    split at h
    · cases hr : untilEnd (csReplaceStep fs.csGetWireType (fun tag wire bs v => fs.csReplaceAt ρ tag wire bs v)) bs.length fs.csNew bs with
      | error e => rw [hr] at h; cases h
      | ok x => rw [hr] at h; cases h; exact short_loop ρ _ _ _ hl (short_new L fs) hr
    · cases hr : vs.csVariant ρ tag bs with
      | error e => rw [hr] at h; cases h
      | ok x =>
        rw [hr] at h
        cases x with
        | none => cases h
        | some x => cases h; exact short_variant ρ (vs := vs) hl hr

/-- What a path and a value of an entry read from bytes can be. -/
def _root_.Steit.Entry.Short (L : Nat) : Entry → Prop
  | .update path value => path.length ≤ L ∧ value.length ≤ L
  | .listPush path item => path.length ≤ L ∧ item.length ≤ L
  | .listPop path => path.length ≤ L
  | .mapRemove path _ => path.length ≤ L

theorem short_entry (ρ : Bytes → Str) {bs rest : Bytes} {v : logEntryTy.Cs} (h : logEntryTy.csDeserialize ρ bs = .ok (v, rest)) :
    (Entry.ofCs v).Short bs.length := by
  unfold logEntryTy at h
  simp only [Ty.csDeserialize, bind, Except.bind] at h
  have ht := tame_uint .w32 bs
  have hd' : csReadUInt32 bs = csReadUInt .w32 bs := rfl
  cases hu : csReadUInt32 bs with
  | error e => rw [hu] at h; cases h
  | ok r =>
    obtain ⟨tag, q⟩ := r
    rw [← hd', hu] at ht
    have ht : q.length + 1 ≤ bs.length := ht
    rw [hu] at h
    simp only at h
    split at h
    · split at h
      · cases h
      · rename_i hr
        cases h
        have := short_loop ρ (L := bs.length) _ _ _ (by omega) (short_new _ _) hr
        exact ⟨this.1, this.2.1⟩
    · split at h
      · cases h
      · rename_i hr
        split at h
        · rename_i v
          cases h
          have := short_variant ρ (L := bs.length) (by omega) hr
          rcases v with x | x | x | x
          · exact ⟨this.1, this.2.1⟩
          · exact this.1
          · exact this.1
          · exact x.elim
        · cases h
          exact ⟨Nat.zero_le _, Nat.zero_le _⟩

theorem replayEntry_runs {P : Project} (ρ : Bytes → Str) {t : Ty} (hp : primitive t = false) {k : Nat} {τ : Rt} {n L : Nat} (hr : Runs P k t τ)
    (hn : depth t ≤ n) (hl : 2 * L + 1 < k) (v : t.Cs) : ∀ {e : Entry}, e.Short L →
    replayEntry P ρ n τ (valOf t v) e = (t.csReplayEntry ρ v e).map (valOf t)
  | .update path value, he => by
    have he : path.length ≤ L ∧ value.length ≤ L := he
    simp only [replayEntry, Ty.csReplayEntry]
    cases hg : path.getLast? with
    | none =>
      simp only [readsTy P ρ t k τ n value (fun _ => by omega) hr hn, bind, Except.bind]
      cases t.csDeserialize ρ value <;> rfl
    | some tag =>
      exact atTy P ρ _ t hp k τ n _ v (by simp only [CsAct.size, List.length_dropLast]; omega) hr hn
  | .listPush path item, he => by
    have he : path.length ≤ L ∧ item.length ≤ L := he
    exact atTy P ρ _ t hp k τ n _ v (by simp only [CsAct.size]; omega) hr hn
  | .listPop path, he => by
    have he : path.length ≤ L := he
    exact atTy P ρ _ t hp k τ n _ v (by simp only [CsAct.size]; omega) hr hn
  | .mapRemove path key, he => by
    have he : path.length ≤ L := he
    exact atTy P ρ _ t hp k τ n _ v (by simp only [CsAct.size]; omega) hr hn

theorem replay_runs {P : Project} (ρ : Bytes → Str) {t : Ty} (hp : primitive t = false) {k : Nat} {τ : Rt} {n : Nat} (hr : Runs P k t τ)
    (hn : depth t ≤ n) (bs : Bytes) (hl : 2 * bs.length < k) (v : t.Cs) :
    replay P ρ n τ (valOf t v) bs = (t.csReplay ρ v bs).map (valOf t) := by
  have tame : ∀ (v : t.Cs) bs, bs ≠ [] → Tame bs 1 (t.csReplayStep ρ v bs) := fun v bs _ => tame_replayStep ρ t v bs
  refine untilEnd_map (g := valOf t) (L := bs.length) (fun v bs' hl' => ?_) tame _ v bs (Nat.le_refl _)
  unfold replayStepAt Ty.csReplayStep
  have hne := tame_nested bs'
  simp only [bind, Except.bind]
  cases hg : csGetNested bs' with
  | error e => rfl
  | ok p =>
    obtain ⟨payload, rest⟩ := p
    rw [hg] at hne
    have hne : payload.length + rest.length + 1 ≤ bs'.length := hne
    simp only
    cases he : logEntryTy.csDeserialize ρ payload with
    | error e => rfl
    | ok r =>
      obtain ⟨e, q⟩ := r
      simp only [replayEntry_runs ρ hp hr hn (L := payload.length) (by omega) v (short_entry ρ he)]
      cases t.csReplayEntry ρ v (Entry.ofCs e) <;> rfl

end Steit.Gen
