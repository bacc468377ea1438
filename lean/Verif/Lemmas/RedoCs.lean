import Verif.Lemmas.RedoTy
import Verif.Lemmas.CSharpFollow
import Verif.Spec.Again

/-! # Writing the same twice: the client -/

namespace Steit
open Spec

variable (ρ : Bytes → Str)

theorem toOption_some {ε α : Type} {x : Except ε α} {v : α} : x.toOption = some v ↔ x = .ok v := by
  cases x with
  | ok y => exact ⟨fun h => by cases h; rfl, fun h => by cases h; rfl⟩
  | error e => exact ⟨fun h => (nomatch h), fun h => (nomatch h)⟩

/-- A write by replaying an entry. -/
def stepC (t : Ty) (v : t.Cs) (w : Write) : Option t.Cs := (t.csReplayEntry ρ v (.update w.1 w.2)).toOption

/-- A write to the fields of a message. -/
def stepCF (fs : Fields) (v : fs.Cs) (w : Write) : Option fs.Cs :=
  if w.1 = [] then none else (csEntry (fs.csPerform ρ) (fs.csBelow ρ) v (.update w.1 w.2)).toOption

/-- A write below an enum; there is nothing to do for an unknown variant. -/
def stepCV (vs : Variants) (v : vs.Cs) (w : Write) : Option vs.Cs :=
  if w.1.length ≤ 1 then some v else (csEntry (fun _ v => .ok v) (vs.csBelow ρ) v (.update w.1 w.2)).toOption

mutual
theorem alike_refl : (t : Ty) → ∀ c, Alike t c c
  | .box t, c => alike_refl t c
  | .list t, c => by
    show List.Forall₂ _ c c
    rw [List.forall₂_same]
    exact fun x _ => alike_refl t x
  | .map _ t, c => fun k => by
    cases h : c.lookup k with
    | none => exact .none
    | some x => exact .some (alike_refl t x)
  | .struct _ _ fs, c => alikeFields_refl fs c
  | .enum _ _ fs vs, .inl c => alikeFields_refl fs c
  | .enum _ _ fs vs, .inr c => alikeVariant_refl vs c
  | .uint _, _ => rfl
  | .sint _, _ => rfl
  | .bool, _ => rfl
  | .string, _ => rfl
  | .bytes, _ => rfl
  | .vec _, _ => rfl
  | .array _ _, _ => rfl
  | .tuple _, _ => rfl
  | .option _, _ => rfl
  | .hashMap _ _, _ => rfl

theorem alikeFields_refl : (fs : Fields) → ∀ c, AlikeFields fs c c
  | .nil, _ => trivial
  | .cons _ _ t fs, c => ⟨alike_refl t c.1, alikeFields_refl fs c.2⟩

theorem alikeVariant_refl : (vs : Variants) → ∀ c, AlikeVariant vs c c
  | .nil, _ => trivial
  | .cons _ _ fs vs, .inl c => alikeFields_refl fs c
  | .cons _ _ fs vs, .inr c => alikeVariant_refl vs c
end

variable {ρ}

theorem stepC_root {t : Ty} (v v' : t.Cs) (b : Bytes) : stepC ρ t v ([], b) = stepC ρ t v' ([], b) := rfl

theorem stepC_below {t : Ty} {v v' : t.Cs} {w : Write} (hw : w.1 ≠ []) :
    stepC ρ t v w = some v' ↔ csEntry (t.csPerform ρ) (t.csBelow ρ) v (.update w.1 w.2) = .ok v' := by
  unfold stepC
  rw [toOption_some, csReplayEntry_inner ρ (by intro val h; injection h with h1; exact hw h1)]

/-- Writes below a value that is no state do nothing. -/
theorem below_quiet : (t : Ty) → ∀ (v : t.Cs) act k p, t.isCsState = false → t.csBelow ρ act k p v = .ok v
  | .uint _, _, _, _, _, _ => rfl
  | .sint _, _, _, _, _, _ => rfl
  | .bool, _, _, _, _, _ => rfl
  | .string, _, _, _, _, _ => rfl
  | .box t, v, act, k, p, h => by
    rw [Ty.csBelow]
    exact below_quiet t v act k p h

theorem perform_quiet : (t : Ty) → ∀ (v : t.Cs) k b, t.isCsState = false → t.csPerform ρ (.update k b) v = .ok v
  | .uint _, _, _, _, _ => rfl
  | .sint _, _, _, _, _ => rfl
  | .bool, _, _, _, _ => rfl
  | .string, _, _, _, _ => rfl
  | .box t, v, k, b, h => perform_quiet t v k b h

theorem step_quiet {t : Ty} (ht : t.isCsState = false) {v : t.Cs} {w : Write} (hw : w.1 ≠ []) : stepC ρ t v w = some v := by
  rw [stepC_below hw]
  simp only [csEntry]
  cases hl : w.1.getLast? with
  | none => exact absurd (List.getLast?_eq_none_iff.1 hl) hw
  | some tag =>
    cases hd : w.1.dropLast with
    | nil => exact perform_quiet t v tag w.2 ht
    | cons k p => exact below_quiet t v _ k p ht

theorem redo_leafC {t : Ty} (hP : ∀ (v : t.Cs) k b, t.csPerform ρ (.update k b) v = .ok v)
    (hB : ∀ (v : t.Cs) act k p, t.csBelow ρ act k p v = .ok v) (I : t.Cs → Prop) : Redoes (stepC ρ t) I (Alike t) := by
  refine redo_leaf (step := stepC ρ t) (alike_refl t) (fun v v' b x h => h) (fun v w v' hw h => ?_) I
  rw [stepC_below hw] at h
  simp only [csEntry] at h
  cases hl : w.1.getLast? with
  | none => exact absurd (List.getLast?_eq_none_iff.1 hl) hw
  | some tag =>
    simp only [hl] at h
    cases hd : w.1.dropLast with
    | nil => simp only [hd, descend, hP] at h; cases h; rfl
    | cons k p => simp only [hd, descend, hB] at h; cases h; rfl

/-- What an entry says below a state that is there, and below anything else. -/
theorem entry_down {t : Ty} {β : Type} {P : CsAct → β → Except Exn β} {B : CsAct → U32 → List U32 → β → Except Exn β} {v v' : β} {y : t.Cs}
    {put : t.Cs → β} {k j : U32} {p : List U32} {b : Bytes}
    (hB : ∀ act path, B act k path v = if t.isCsState then (do
      let x ← descend (t.csPerform ρ act) (t.csBelow ρ act) path y
      .ok (put x)) else .ok v) (hput : put y = v)
    (h : csEntry P B v (.update (k :: j :: p) b) = .ok v') :
    ∃ y', stepC ρ t y (j :: p, b) = some y' ∧ v' = put y' := by
  by_cases ht : t.isCsState = true
  · have hB' : ∀ act path, B act k path v = (do
        let x ← descend (t.csPerform ρ act) (t.csBelow ρ act) path y
        .ok (put x)) := fun act path => by rw [hB, if_pos ht]
    have h3 := csEntry_below (P := P) hB' (e := .update (j :: p) b) (by intro val h; cases h)
    rw [show under [k] (.update (j :: p) b) = Entry.update (k :: j :: p) b from rfl] at h3
    rw [h] at h3
    cases h4 : csEntry (t.csPerform ρ) (t.csBelow ρ) y (.update (j :: p) b) with
    | error e => rw [h4] at h3; cases h3
    | ok x =>
      rw [h4] at h3
      cases h3
      exact ⟨x, (stepC_below (by simp)).2 h4, rfl⟩
  · refine ⟨y, step_quiet (by simpa using ht) (by simp), ?_⟩
    rw [hput]
    simp only [csEntry, List.getLast?_cons_cons] at h
    cases hl : (j :: p).getLast? with
    | none => simp at hl
    | some tag =>
      simp only [hl, List.dropLast_cons_cons, descend, hB, if_neg ht] at h
      cases h
      rfl

/-- Writes to the fields of a variant, out of those below the enum. -/
def subV (tag : U32) : Write → Option Write
  | (k :: j :: p, b) => if k = tag then some (j :: p, b) else none
  | _ => none

/-- A variant that stays. -/
theorem stay_variant {σ : Type} {fs : Fields} {S : σ → Write → Option σ} {tag : U32} {put : fs.Cs → σ}
    (hS : ∀ x w v', w.1 ≠ [] → S (put x) w = some v' →
      match subV tag w with
      | none => v' = put x
      | some w' => ∃ x', v' = put x' ∧ stepCF ρ fs x w' = some x')
    {U : List Write} : (∀ w ∈ U, w.1 ≠ []) → ∀ {x : fs.Cs} {v' : σ}, runW S U (put x) = some v' →
    ∃ x', v' = put x' ∧ runW (stepCF ρ fs) (U.filterMap (subV tag)) x = some x' := by
  induction U with
  | nil => intro _ x v' h; cases h; exact ⟨x, rfl, rfl⟩
  | cons w U ih =>
    intro hU x v' h
    obtain ⟨u, h1, h2⟩ := runW_cons.1 h
    have h3 := hS x w u (hU w (by simp)) h1
    cases hw : subV tag w with
    | none =>
      rw [hw] at h3
      subst h3
      obtain ⟨x', h4, h5⟩ := ih (fun w hw => hU w (by simp [hw])) h2
      exact ⟨x', h4, by rw [List.filterMap_cons_none hw]; exact h5⟩
    | some w' =>
      rw [hw] at h3
      obtain ⟨y, rfl, h4⟩ := h3
      obtain ⟨x', h5, h6⟩ := ih (fun w hw => hU w (by simp [hw])) h2
      exact ⟨x', h5, by rw [List.filterMap_cons_some hw]; exact runW_cons.2 ⟨y, h4, h6⟩⟩

/-- What an entry says below a variant. -/
theorem entry_variant {fs : Fields} {β : Type} {P : CsAct → β → Except Exn β} {B : CsAct → U32 → List U32 → β → Except Exn β} {v' : β} {y : fs.Cs}
    {put : fs.Cs → β} {k j tag : U32} {p : List U32} {b : Bytes}
    (hB : ∀ act path, B act k path (put y) = if k = tag then (do
      let x ← descend (fs.csPerform ρ act) (fs.csBelow ρ act) path y
      .ok (put x)) else .ok (put y))
    (h : csEntry P B (put y) (.update (k :: j :: p) b) = .ok v') :
    match subV tag (k :: j :: p, b) with
    | none => v' = put y
    | some w' => ∃ x', v' = put x' ∧ stepCF ρ fs y w' = some x' := by
  by_cases hk : k = tag
  · have hB' : ∀ act path, B act k path (put y) = (do
        let x ← descend (fs.csPerform ρ act) (fs.csBelow ρ act) path y
        .ok (put x)) := fun act path => by rw [hB, if_pos hk]
    have h3 := csEntry_below (P := P) hB' (e := .update (j :: p) b) (by intro val h; cases h)
    rw [show under [k] (.update (j :: p) b) = Entry.update (k :: j :: p) b from rfl, h] at h3
    simp only [subV, if_pos hk]
    cases h4 : csEntry (fs.csPerform ρ) (fs.csBelow ρ) y (.update (j :: p) b) with
    | error e => rw [h4] at h3; cases h3
    | ok x =>
      rw [h4] at h3
      cases h3
      refine ⟨x, rfl, ?_⟩
      simp only [stepCF, reduceCtorEq, if_false]
      rw [h4]
      rfl
  · simp only [subV, if_neg hk]
    simp only [csEntry, List.getLast?_cons_cons] at h
    cases hl : (j :: p).getLast? with
    | none => simp at hl
    | some tag' =>
      simp only [hl, List.dropLast_cons_cons, descend, hB, if_neg hk] at h
      cases h
      rfl

theorem rel_of {α : Type} {E : α → α → Prop} {o o' : Option α} (h : (o = none ∧ o' = none) ∨ ∃ x y, o = some x ∧ o' = some y ∧ E y x) :
    Option.Rel E o' o := by
  rcases h with ⟨rfl, rfl⟩ | ⟨x, y, rfl, rfl, h⟩
  · exact .none
  · exact .some h

theorem forall₂_of {α : Type} {E : α → α → Prop} : ∀ {l l' : List α}, l'.length = l.length →
    (∀ (i : Nat) x y, l[i]? = some x → l'[i]? = some y → E y x) → List.Forall₂ E l' l
  | [], [], _, _ => .nil
  | x :: l, y :: l', h, he => .cons (he 0 x y rfl rfl) (forall₂_of (by simpa using h) fun i a b ha hb => he (i + 1) a b (by simpa using ha) (by simpa using hb))

mutual
theorem redoTyC (ρ : Bytes → Str) : (t : Ty) → Redoes (stepC ρ t) (fun _ => True) (Alike t)
  | .uint _ => redo_leafC (fun _ _ _ => rfl) (fun _ _ _ _ => rfl) _
  | .sint _ => redo_leafC (fun _ _ _ => rfl) (fun _ _ _ _ => rfl) _
  | .bool => redo_leafC (fun _ _ _ => rfl) (fun _ _ _ _ => rfl) _
  | .string => redo_leafC (fun _ _ _ => rfl) (fun _ _ _ _ => rfl) _
  | .bytes => redo_leafC (fun _ _ _ => rfl) (fun _ _ _ _ => rfl) _
  | .vec _ => redo_leafC (fun _ _ _ => rfl) (fun _ _ _ _ => rfl) _
  | .array _ _ => redo_leafC (fun _ _ _ => rfl) (fun _ _ _ _ => rfl) _
  | .tuple _ => redo_leafC (fun _ _ _ => rfl) (fun _ _ _ _ => rfl) _
  | .option _ => redo_leafC (fun _ _ _ => rfl) (fun _ _ _ _ => rfl) _
  | .hashMap _ _ => redo_leafC (fun _ _ _ => rfl) (fun _ _ _ _ => rfl) _
  | .box t => by
    have ih := redoTyC ρ t
    have he : ∀ v w, stepC ρ (.box t) v w = stepC ρ t v w := by
      intro v w
      have hb : ∀ act, (Ty.box t).csBelow ρ act = t.csBelow ρ act := fun act => by funext k p v; rw [Ty.csBelow]
      unfold stepC
      by_cases hw : w.1 = []
      · simp only [Ty.csReplayEntry, hw, List.getLast?_nil]
        rfl
      · rw [csReplayEntry_inner ρ (by intro val h; injection h with h1; exact hw h1),
          csReplayEntry_inner ρ (by intro val h; injection h with h1; exact hw h1)]
        rw [show (Ty.box t).csBelow ρ = t.csBelow ρ from funext hb]
        rfl
    have : stepC ρ (.box t) = stepC ρ t := by funext v w; exact he v w
    rw [this]
    exact ih
  | .list t => by
    have ih := redoTyC ρ t
    refine redo_node (alike_refl _) (fun _ _ _ _ _ => trivial) (fun v v' b x _ _ h => h) ?_
    intro U v v1 v2 hU hv h1 h2
    suffices hS : ∀ (l : List t.Cs) k p b l', stepC ρ (.list t) l (k :: p, b) = some l' → l'.length = l.length ∧
        ∀ i x, l[i]? = some x → ∃ x', l'[i]? = some x' ∧ if k.toNat = i then stepC ρ t x (p, b) = some x' else x' = x by
      obtain ⟨hlen, heq⟩ := redo_items (I := fun _ _ => True) (fun _ => ih) hS U v v1 v2 hU (fun _ _ _ => trivial) h1 h2
      exact forall₂_of hlen heq
    · intro l k p b l' h
      rw [stepC_below (by simp)] at h
      cases p with
      | nil =>
        change Ty.csPerform ρ (.list t) (.update k b) l = _ at h
        simp only [Ty.csPerform] at h
        split at h
        · cases h
        · next hk =>
          cases hd : t.csDeserialize ρ b with
          | error e => rw [hd] at h; cases h
          | ok y =>
            rw [hd] at h
            cases h
            refine ⟨by simp, fun i x hx => ?_⟩
            by_cases hi : k.toNat = i
            · subst hi
              refine ⟨y.1, List.getElem?_set_self (by omega), ?_⟩
              rw [if_pos rfl]
              show (t.csReplayEntry ρ x (.update [] b)).toOption = _
              simp only [Ty.csReplayEntry, List.getLast?_nil, hd]
              rfl
            · exact ⟨x, by simp [List.getElem?_set, hi, hx], by rw [if_neg hi]⟩
      | cons j p =>
        cases hk : l[k.toNat]? with
        | none =>
          have : l' = l := by
            simp only [csEntry, List.getLast?_cons_cons] at h
            cases hl : (j :: p).getLast? with
            | none => simp at hl
            | some tag =>
              simp only [hl, List.dropLast_cons_cons, descend, Ty.csBelow, hk] at h
              split at h <;> (cases h; rfl)
          subst this
          refine ⟨rfl, fun i x hx => ⟨x, hx, ?_⟩⟩
          rw [if_neg]
          rintro rfl
          rw [hk] at hx
          cases hx
        | some y =>
          obtain ⟨y', h3, rfl⟩ := entry_down (t := t) (put := fun x => l.set k.toNat x) (fun act path => by rw [Ty.csBelow, hk]) (set_same hk) h
          refine ⟨by simp, fun i x hx => ?_⟩
          by_cases hi : k.toNat = i
          · subst hi
            rw [hk] at hx
            cases hx
            have := (List.getElem?_eq_some_iff.1 hk).1
            exact ⟨y', by simp [this], by rw [if_pos rfl]; exact h3⟩
          · exact ⟨x, by simp [List.getElem?_set, hi, hx], by rw [if_neg hi]⟩
  | .map kt t => by
    have ih := redoTyC ρ t
    refine redo_node (alike_refl _) (fun _ _ _ _ _ => trivial) (fun v v' b x _ _ h => h) ?_
    intro U v v1 v2 hU hv h1 h2 k
    refine rel_of (redo_entries (fun k (d : List (U32 × t.Cs)) => d.lookup k) (fresh := fun _ b => ((t.csDeserialize ρ b).toOption).map (·.1))
      (below := some none) (fun _ => True) (I := fun _ _ => True) (alike_refl t) (fun _ _ _ _ _ _ => trivial) (fun _ => ih) (fun _ _ _ _ => trivial) ?_ (.inr rfl)
      (fun _ v v' b x _ _ h => h) ?_ U v v1 v2 trivial hU (fun _ _ _ => trivial) h1 h2 k)
    · intro k b x y _ h
      show (t.csReplayEntry ρ y (.update [] b)).toOption = _
      simp only [Ty.csReplayEntry, List.getLast?_nil]
      cases hd : t.csDeserialize ρ b with
      | error e => rw [hd] at h; cases h
      | ok z => rw [hd] at h; cases h; rfl
    · intro d k p b d' _ h
      rw [stepC_below (by simp)] at h
      cases p with
      | nil =>
        change Ty.csPerform ρ (.map kt t) (.update k b) d = _ at h
        simp only [Ty.csPerform] at h
        cases hd : t.csDeserialize ρ b with
        | error e => rw [hd] at h; cases h
        | ok y =>
          rw [hd] at h
          cases h
          refine ⟨?_, fun j hj => by rw [lookup_dictSet, if_neg hj], trivial⟩
          rw [lookup_dictSet, if_pos rfl]
          cases hk : d.lookup k with
          | none => simp only [stepO, hd]; rfl
          | some x =>
            show ((t.csReplayEntry ρ x (.update [] b)).toOption).map some = _
            simp only [Ty.csReplayEntry, List.getLast?_nil, hd]
            rfl
      | cons j p =>
        cases hk : d.lookup k with
        | none =>
          have : d' = d := by
            simp only [csEntry, List.getLast?_cons_cons] at h
            cases hl : (j :: p).getLast? with
            | none => simp at hl
            | some tag =>
              simp only [hl, List.dropLast_cons_cons, descend, Ty.csBelow, hk] at h
              split at h <;> (cases h; rfl)
          subst this
          exact ⟨by rw [hk]; rfl, fun _ _ => rfl, trivial⟩
        | some y =>
          have hput : dictPut k y d = d := by
            clear h
            revert hk
            induction d with
            | nil => intro hk; cases hk
            | cons e d ihd =>
              intro hk
              obtain ⟨i, z⟩ := e
              rw [List.lookup_cons] at hk
              simp only [dictPut]
              by_cases hi : i = k
              · subst hi
                rw [if_pos rfl]
                simp at hk
                rw [hk]
              · rw [if_neg hi]
                rw [show (k == i) = false by simpa using Ne.symm hi] at hk
                rw [ihd hk]
          obtain ⟨y', h3, rfl⟩ := entry_down (t := t) (put := fun x => dictPut k x d) (fun act path => by rw [Ty.csBelow, hk]) hput h
          refine ⟨?_, fun j hj => by rw [lookup_dictPut, if_neg hj], trivial⟩
          rw [lookup_dictPut, if_pos rfl, hk]
          show (stepC ρ t y (j :: p, b)).map some = _
          rw [h3]
          rfl
  | .struct ds cached fs => by
    have ih := redoFieldsC ρ fs
    refine redo_node (alike_refl _) (fun _ _ _ _ _ => trivial) (fun v v' b x _ _ h => h) ?_
    intro U v v1 v2 hU hv h1 h2
    have hb : ∀ act, (Ty.struct ds cached fs).csBelow ρ act = fs.csBelow ρ act := fun act => by funext k p v; rw [Ty.csBelow]
    have hstep : ∀ (v : fs.Cs) w (v' : fs.Cs), w ∈ U → stepC ρ (.struct ds cached fs) v w = some v' → stepCF ρ fs v w = some v' := by
      intro v w v' hw h
      rw [stepC_below (hU w hw)] at h
      unfold stepCF
      rw [if_neg (hU w hw), toOption_some]
      rw [show (Ty.struct ds cached fs).csBelow ρ = fs.csBelow ρ from funext hb] at h
      exact h
    have p1 := runW_proj (step' := stepCF ρ fs) id id hstep h1
    have p2 := runW_proj (step' := stepCF ρ fs) id id hstep h2
    exact ih _ _ _ _ trivial p1 p2
  | .enum ds cached fs vs => by
    have ihf := redoFieldsC ρ fs
    have ihv := redoVariantsC ρ vs
    refine redo_whole (fun w => w.1 = [] ∨ ∃ k, w.1 = [k] ∧ (k = 0#32 ∨ vs.csVariant ρ k w.2 ≠ .ok none)) (alike_refl _) (fun _ _ _ _ _ => trivial) ?_ ?_
    · intro v v' w x hw _ _ h
      obtain ⟨p, b⟩ := w
      rcases hw with hw | ⟨k, hw, hk⟩
      · cases hw
        exact h
      · cases hw
        rw [stepC_below (by simp)] at h ⊢
        change Ty.csPerform ρ (.enum ds cached fs vs) (.update k b) v = _ at h
        show Ty.csPerform ρ (.enum ds cached fs vs) (.update k b) v' = _
        simp only [Ty.csPerform] at h ⊢
        split at h
        · next h0 => rw [if_pos h0]; exact h
        · next h0 =>
          rw [if_neg h0]
          cases hv : vs.csVariant ρ k b with
          | error e => rw [hv] at h; cases h
          | ok o =>
            cases o with
            | none => exact absurd hv (hk.resolve_left h0)
            | some y => rw [hv] at h; exact h
    · intro U v v1 v2 hU _ h1 h2
      have hU' : ∀ w ∈ U, w.1 ≠ [] := fun w hw h => hU w hw (.inl h)
      have quiet : ∀ (v : (Ty.enum ds cached fs vs).Cs) k b v', ([k], b) ∈ U → stepC ρ (.enum ds cached fs vs) v ([k], b) = some v' → v' = v := by
        intro v k b v' hw h
        rw [stepC_below (by simp)] at h
        change Ty.csPerform ρ (.enum ds cached fs vs) (.update k b) v = _ at h
        simp only [Ty.csPerform] at h
        split at h
        · next h0 => exact absurd (.inr ⟨k, rfl, .inl h0⟩) (hU _ hw)
        · have : vs.csVariant ρ k b = .ok none := by
            by_contra hn
            exact hU _ hw (.inr ⟨k, rfl, .inr hn⟩)
          rw [this] at h
          cases h
          rfl
      cases v with
      | inl x =>
        have hS : ∀ {U' : List Write}, (∀ w ∈ U', w ∈ U) → ∀ {x : fs.Cs} {v' : (Ty.enum ds cached fs vs).Cs}, runW (stepC ρ (.enum ds cached fs vs)) U' (.inl x) = some v' →
            ∃ x', v' = .inl x' ∧ runW (stepCF ρ fs) (U'.filterMap (subV 0#32)) x = some x' := by
          intro U' hsub x v' h
          refine stay_variant (S := fun v w => if w ∈ U then stepC ρ (.enum ds cached fs vs) v w else none) (put := Sum.inl) ?_ (fun w hw => hU' w (hsub w hw)) ?_
          · intro x w v' hw h
            split at h
            · next hm =>
              obtain ⟨p, b⟩ := w
              match p with
              | [] => exact absurd rfl hw
              | [k] => exact quiet _ k b v' hm h
              | k :: j :: p =>
                rw [stepC_below (by simp)] at h
                exact entry_variant (put := Sum.inl) (fun act path => by rw [Ty.csBelow]) h
            · cases h
          · have := runW_proj (step' := fun v w => if w ∈ U then stepC ρ (.enum ds cached fs vs) v w else none) id id
              (fun v w v' hw h => by show (if w ∈ U then _ else _) = _; rw [if_pos (hsub w hw)]; exact h) h
            rw [List.map_id] at this
            exact this
        obtain ⟨x1, rfl, h3⟩ := hS (fun w hw => hw) h1
        obtain ⟨x2, rfl, h4⟩ := hS (fun w hw => hw) h2
        exact ihf _ _ _ _ trivial h3 h4
      | inr x =>
        have hS : ∀ {U' : List Write}, (∀ w ∈ U', w ∈ U) → ∀ {x : vs.Cs} {v' : (Ty.enum ds cached fs vs).Cs}, runW (stepC ρ (.enum ds cached fs vs)) U' (.inr x) = some v' →
            ∃ x', v' = .inr x' ∧ runW (stepCV ρ vs) U' x = some x' := by
          intro U'
          induction U' with
          | nil => intro _ x v' h; cases h; exact ⟨x, rfl, rfl⟩
          | cons w U' ih =>
            intro hsub x v' h
            obtain ⟨u, h3, h4⟩ := runW_cons.1 h
            have hm := hsub w (by simp)
            have : ∃ y, u = .inr y ∧ stepCV ρ vs x w = some y := by
              obtain ⟨p, b⟩ := w
              match p with
              | [] => exact absurd rfl (hU' _ hm)
              | [k] => exact ⟨x, quiet _ k b u hm h3, rfl⟩
              | k :: j :: p =>
                rw [stepC_below (by simp)] at h3
                simp only [csEntry, List.getLast?_cons_cons, stepCV, List.length_cons] at h3 ⊢
                rw [if_neg (by omega)]
                cases hl : (j :: p).getLast? with
                | none => simp at hl
                | some tag =>
                  simp only [hl, List.dropLast_cons_cons, descend, Ty.csBelow] at h3 ⊢
                  cases hv : vs.csBelow ρ (.update tag b) k (j :: p).dropLast x with
                  | error e => rw [hv] at h3; cases h3
                  | ok y => rw [hv] at h3; cases h3; exact ⟨y, rfl, rfl⟩
            obtain ⟨y, rfl, h5⟩ := this
            obtain ⟨z, rfl, h6⟩ := ih (fun w hw => hsub w (by simp [hw])) h4
            exact ⟨z, rfl, runW_cons.2 ⟨y, h5, h6⟩⟩
        obtain ⟨x1, rfl, h3⟩ := hS (fun w hw => hw) h1
        obtain ⟨x2, rfl, h4⟩ := hS (fun w hw => hw) h2
        exact ihv U _ _ _ hU' h3 h4

theorem redoFieldsC (ρ : Bytes → Str) : (fs : Fields) → Redoes (stepCF ρ fs) (fun _ => True) (AlikeFields fs)
  | .nil => fun _ _ _ _ _ _ _ => trivial
  | .cons tag attrs t fs => by
    have ih1 := redoTyC ρ t
    have ih2 := redoFieldsC ρ fs
    intro U v v1 v2 _ h1 h2
    refine redo_pair (S := stepCF ρ (.cons tag attrs t fs)) (fun k => k == tag) ih1 ih2 ?_ (fun _ _ => rfl) U v v1 v2 ⟨trivial, trivial⟩ h1 h2
    intro v k p b v' h
    simp only [stepCF, reduceCtorEq, if_false, toOption_some] at h
    by_cases hk : k = tag
    · rw [if_pos (by simp [hk])]
      cases p with
      | nil =>
        change Fields.csPerform ρ (.cons tag attrs t fs) (.update k b) v = _ at h
        simp only [Fields.csPerform, Fields.csGetWireType, Fields.csReplaceAt, if_pos hk] at h
        cases hd : t.csDeserialize ρ b with
        | error e => rw [hd] at h; cases h
        | ok y =>
          rw [hd] at h
          cases h
          refine ⟨?_, rfl⟩
          show (t.csReplayEntry ρ _ (.update [] b)).toOption = _
          simp only [Ty.csReplayEntry, List.getLast?_nil, hd]
          rfl
      | cons j p =>
        obtain ⟨y', h3, rfl⟩ := entry_down (t := t) (y := v.1) (put := fun x => ((x, v.2) : t.Cs × fs.Cs))
          (fun act path => by rw [Fields.csBelow, if_pos hk]) rfl h
        exact ⟨h3, rfl⟩
    · rw [if_neg (by simp [hk])]
      have : ∃ y, csEntry (fs.csPerform ρ) (fs.csBelow ρ) v.2 (.update (k :: p) b) = .ok y ∧ v' = (v.1, y) := by
        simp only [csEntry] at h ⊢
        cases hl : (k :: p).getLast? with
        | none => simp at hl
        | some tag' =>
          simp only [hl] at h ⊢
          cases p with
          | nil =>
            obtain rfl : k = tag' := by simpa using hl
            simp only [List.dropLast_singleton, descend, Fields.csPerform, Fields.csGetWireType, Fields.csReplaceAt, if_neg hk] at h ⊢
            cases hw : fs.csGetWireType k with
            | none => rw [hw] at h; cases h; exact ⟨_, rfl, rfl⟩
            | some wire =>
              simp only [hw] at h ⊢
              cases hr : fs.csReplaceAt ρ k wire b v.2 with
              | error e => rw [hr] at h; cases h
              | ok z => rw [hr] at h; cases h; exact ⟨_, rfl, rfl⟩
          | cons j p =>
            simp only [List.dropLast_cons_cons, descend, Fields.csBelow, if_neg hk] at h ⊢
            cases hr : fs.csBelow ρ (.update tag' b) k (j :: p).dropLast v.2 with
            | error e => rw [hr] at h; cases h
            | ok z => rw [hr] at h; cases h; exact ⟨_, rfl, rfl⟩
      obtain ⟨y, h3, rfl⟩ := this
      exact ⟨rfl, by simp only [stepCF, reduceCtorEq, if_false, toOption_some]; exact h3⟩

theorem redoVariantsC (ρ : Bytes → Str) : (vs : Variants) → ∀ U v v1 v2, (∀ w ∈ U, w.1 ≠ []) → runW (stepCV ρ vs) U v = some v1 →
    runW (stepCV ρ vs) U v1 = some v2 → AlikeVariant vs v2 v1
  | .nil => fun _ _ _ _ _ _ _ => trivial
  | .cons tag cached fs vs => by
    have ihf := redoFieldsC ρ fs
    have ihv := redoVariantsC ρ vs
    intro U v v1 v2 hU h1 h2
    cases v with
    | inl x =>
      have hS : ∀ {x : fs.Cs} {v' : (Variants.cons tag cached fs vs).Cs}, runW (stepCV ρ (.cons tag cached fs vs)) U (.inl x) = some v' →
          ∃ x', v' = .inl x' ∧ runW (stepCF ρ fs) (U.filterMap (subV tag)) x = some x' := by
        intro x v' h
        refine stay_variant (put := Sum.inl) ?_ hU h
        intro x w v' hw h
        obtain ⟨p, b⟩ := w
        match p with
        | [] => exact absurd rfl hw
        | [k] => cases h; rfl
        | k :: j :: p =>
          simp only [stepCV, List.length_cons] at h
          rw [if_neg (by omega), toOption_some] at h
          exact entry_variant (put := Sum.inl) (fun act path => by rw [Variants.csBelow]) h
      obtain ⟨x1, rfl, h3⟩ := hS h1
      obtain ⟨x2, rfl, h4⟩ := hS h2
      exact ihf _ _ _ _ trivial h3 h4
    | inr x =>
      have hS : ∀ {U : List Write} {x : vs.Cs} {v' : (Variants.cons tag cached fs vs).Cs}, (∀ w ∈ U, w.1 ≠ []) →
          runW (stepCV ρ (.cons tag cached fs vs)) U (.inr x) = some v' →
          ∃ x', v' = .inr x' ∧ runW (stepCV ρ vs) U x = some x' := by
        intro U
        induction U with
        | nil => intro x v' _ h; cases h; exact ⟨x, rfl, rfl⟩
        | cons w U ih =>
          intro x v' hU h
          obtain ⟨u, h3, h4⟩ := runW_cons.1 h
          have : ∃ y, u = .inr y ∧ stepCV ρ vs x w = some y := by
            obtain ⟨p, b⟩ := w
            match p with
            | [] => exact absurd rfl (hU _ List.mem_cons_self)
            | [k] => cases h3; exact ⟨x, rfl, rfl⟩
            | k :: j :: p =>
              simp only [csEntry, List.getLast?_cons_cons, stepCV, List.length_cons] at h3 ⊢
              rw [if_neg (by omega)] at h3 ⊢
              cases hl : (j :: p).getLast? with
              | none => simp at hl
              | some tag' =>
                simp only [hl, List.dropLast_cons_cons, descend, Variants.csBelow] at h3 ⊢
                cases hv : vs.csBelow ρ (.update tag' b) k (j :: p).dropLast x with
                | error e => rw [hv] at h3; cases h3
                | ok y => rw [hv] at h3; cases h3; exact ⟨y, rfl, rfl⟩
          obtain ⟨y, rfl, h5⟩ := this
          obtain ⟨z, rfl, h6⟩ := ih (fun w hw => hU w (by simp [hw])) h4
          exact ⟨z, rfl, runW_cons.2 ⟨y, h5, h6⟩⟩
      obtain ⟨x1, rfl, h3⟩ := hS hU h1
      obtain ⟨x2, rfl, h4⟩ := hS hU h2
      exact ihv U _ _ _ hU h3 h4
end

end Steit
