import Verif.Lemmas.Redo

/-! # Writing the same twice: the server -/

namespace Steit
open Spec

section
variable {α β γ δ : Type}

/-- What was read, if reading succeeded. -/
def Res.got : Res α → Option α
  | .ok v _ => some v
  | .err _ _ => none

theorem Res.got_some {r : Res α} {v : α} : r.got = some v ↔ ∃ rest, r = .ok v rest := by
  cases r with
  | ok x r => exact ⟨fun h => by cases h; exact ⟨r, rfl⟩, fun ⟨_, h⟩ => by cases h; rfl⟩
  | err x e => exact ⟨fun h => (nomatch h), fun ⟨_, h⟩ => (nomatch h)⟩

/-- A write by replaying an entry. -/
def stepD (d : Dict α) (m : Mode) (v : α) (w : Write) : Option α := (d.handle m v w.1 .update none w.2).got

/-- A write to the fields of a message. -/
def stepF (fs : FieldsD β) (m : Mode) (v : β) : Write → Option β
  | ([], _) => none
  | (k :: p, b) => (fs.handleField m k v p .update none b).bind Res.got

/-- A write to the fields of a variant. -/
def stepV (vs : VariantsD γ) (m : Mode) (v : γ) (w : Write) : Option γ := (vs.handleFields m v w.1 .update none w.2).got

theorem stepD_ok {d : Dict α} {m : Mode} {v v' : α} {w : Write} :
    stepD d m v w = some v' ↔ ∃ r, d.handle m v w.1 .update none w.2 = .ok v' r := Res.got_some

theorem stepV_ok {vs : VariantsD γ} {m : Mode} {v v' : γ} {w : Write} :
    stepV vs m v w = some v' ↔ ∃ r, vs.handleFields m v w.1 .update none w.2 = .ok v' r := Res.got_some

theorem stepF_ok {fs : FieldsD β} {m : Mode} {v v' : β} {k : U32} {p : List U32} {b : Bytes} :
    stepF fs m v (k :: p, b) = some v' ↔ ∃ r, fs.handleField m k v p .update none b = some (.ok v' r) := by
  simp only [stepF, Option.bind_eq_some_iff, Res.got_some]
  exact ⟨fun ⟨_, h, r, hr⟩ => ⟨r, hr ▸ h⟩, fun ⟨r, h⟩ => ⟨_, h, r, rfl⟩⟩

/-- Watching a part of the object. -/
theorem runW_proj {step : α → Write → Option α} {step' : β → Write → Option β} (π : α → β) (h : Write → Write) {U : List Write} :
    (∀ v w v', w ∈ U → step v w = some v' → step' (π v) (h w) = some (π v')) → ∀ {v v' : α}, runW step U v = some v' →
    runW step' (U.map h) (π v) = some (π v') := by
  induction U with
  | nil => intro _ v v' hr; cases hr; rfl
  | cons w U ih =>
    intro hs v v' hr
    obtain ⟨u, h1, h2⟩ := runW_cons.1 hr
    exact runW_cons.2 ⟨π u, hs v w u (by simp) h1, ih (fun v w v' hw => hs v w v' (by simp [hw])) h2⟩

theorem runW_const {step : α → Write → Option α} (ρ : α → δ) {U : List Write} :
    (∀ v w v', w ∈ U → step v w = some v' → ρ v' = ρ v) → ∀ {v v' : α}, runW step U v = some v' → ρ v' = ρ v := by
  induction U with
  | nil => intro _ v v' hr; cases hr; rfl
  | cons w U ih =>
    intro hs v v' hr
    obtain ⟨u, h1, h2⟩ := runW_cons.1 hr
    rw [ih (fun v w v' hw => hs v w v' (by simp [hw])) h2, hs v w u (by simp) h1]

theorem stepV_inl {tag : U32} {cached : Bool} {fs : FieldsD β} {vs : VariantsD γ} {m : Mode} {x : β} {w : Write} {v' : β ⊕ γ} :
    stepV (variantsCons tag cached fs vs) m (.inl x) w = some v' ↔ ∃ x', v' = .inl x' ∧ stepF fs m x w = some x' := by
  obtain ⟨p, b⟩ := w
  constructor
  · intro h
    obtain ⟨r, h⟩ := stepV_ok.1 h
    obtain ⟨x', h1, rfl⟩ := Res.map_ok (show (variantHandle fs m x p .update none b).map .inl = .ok v' r from h)
    refine ⟨x', rfl, ?_⟩
    cases p with
    | nil => cases h1
    | cons k p =>
      refine stepF_ok.2 ⟨r, ?_⟩
      simp only [variantHandle] at h1
      split at h1
      · next r' hr => rw [hr, h1]
      · cases h1
  · rintro ⟨x', rfl, h⟩
    cases p with
    | nil => cases h
    | cons k p =>
      obtain ⟨r, h⟩ := stepF_ok.1 h
      refine stepV_ok.2 ⟨r, ?_⟩
      show (variantHandle fs m x (k :: p) .update none b).map Sum.inl = _
      simp only [variantHandle, h]
      rfl

theorem stepV_inr {tag : U32} {cached : Bool} {fs : FieldsD β} {vs : VariantsD γ} {m : Mode} {x : γ} {w : Write} {v' : β ⊕ γ} :
    stepV (variantsCons tag cached fs vs) m (.inr x) w = some v' ↔ ∃ x', v' = .inr x' ∧ stepV vs m x w = some x' := by
  constructor
  · intro h
    obtain ⟨r, h⟩ := stepV_ok.1 h
    obtain ⟨x', h1, rfl⟩ := Res.map_ok (show (vs.handleFields m x w.1 .update none w.2).map .inr = .ok v' r from h)
    exact ⟨x', rfl, stepV_ok.2 ⟨r, h1⟩⟩
  · rintro ⟨x', rfl, h⟩
    obtain ⟨r, h⟩ := stepV_ok.1 h
    refine stepV_ok.2 ⟨r, ?_⟩
    show (vs.handleFields m x w.1 .update none w.2).map Sum.inr = _
    rw [h]
    rfl

theorem again_sum {tag : U32} {cached : Bool} {fs : FieldsD β} {vs : VariantsD γ} {m : Mode} {I : β → Prop} {J : γ → Prop}
    (hf : ∀ v w v1, I v → stepF fs m v w = some v1 → ∃ v2, stepF fs m v1 w = some v2)
    (hv : ∀ v w v1, J v → stepV vs m v w = some v1 → ∃ v2, stepV vs m v1 w = some v2 ∧ vs.tagOf v1 = vs.tagOf v) (v : β ⊕ γ) (w : Write) (v1 : β ⊕ γ)
    (hI : Sum.elim I J v) (h : stepV (variantsCons tag cached fs vs) m v w = some v1) :
    ∃ v2, stepV (variantsCons tag cached fs vs) m v1 w = some v2 ∧
      (variantsCons tag cached fs vs).tagOf v1 = (variantsCons tag cached fs vs).tagOf v := by
  cases v with
  | inl x =>
    obtain ⟨y, rfl, h1⟩ := stepV_inl.1 h
    obtain ⟨z, h2⟩ := hf x w y hI h1
    exact ⟨.inl z, stepV_inl.2 ⟨z, rfl, h2⟩, rfl⟩
  | inr x =>
    obtain ⟨y, rfl, h1⟩ := stepV_inr.1 h
    obtain ⟨z, h2, h3⟩ := hv x w y hI h1
    exact ⟨.inr z, stepV_inr.2 ⟨z, rfl, h2⟩, h3⟩

theorem redo_sum {tag : U32} {cached : Bool} {fs : FieldsD β} {vs : VariantsD γ} {m : Mode} {I : β → Prop} {J : γ → Prop}
    (hf : Redoes (stepF fs m) I Eq) (hv : Redoes (stepV vs m) J Eq) :
    Redoes (stepV (variantsCons tag cached fs vs) m) (fun v => Sum.elim I J v) Eq := by
  have lefts : ∀ {U : List Write} {x : β} {v' : β ⊕ γ}, runW (stepV (variantsCons tag cached fs vs) m) U (.inl x) = some v' →
      ∃ x', v' = .inl x' ∧ runW (stepF fs m) U x = some x' := by
    intro U
    induction U with
    | nil => intro x v' h; cases h; exact ⟨x, rfl, rfl⟩
    | cons w U ih =>
      intro x v' h
      obtain ⟨u, h1, h2⟩ := runW_cons.1 h
      obtain ⟨y, rfl, h3⟩ := stepV_inl.1 h1
      obtain ⟨z, rfl, h4⟩ := ih h2
      exact ⟨z, rfl, runW_cons.2 ⟨y, h3, h4⟩⟩
  have rights : ∀ {U : List Write} {x : γ} {v' : β ⊕ γ}, runW (stepV (variantsCons tag cached fs vs) m) U (.inr x) = some v' →
      ∃ x', v' = .inr x' ∧ runW (stepV vs m) U x = some x' := by
    intro U
    induction U with
    | nil => intro x v' h; cases h; exact ⟨x, rfl, rfl⟩
    | cons w U ih =>
      intro x v' h
      obtain ⟨u, h1, h2⟩ := runW_cons.1 h
      obtain ⟨y, rfl, h3⟩ := stepV_inr.1 h1
      obtain ⟨z, rfl, h4⟩ := ih h2
      exact ⟨z, rfl, runW_cons.2 ⟨y, h3, h4⟩⟩
  intro U v v1 v2 hI h1 h2
  cases v with
  | inl x =>
    obtain ⟨x1, rfl, h3⟩ := lefts h1
    obtain ⟨x2, rfl, h4⟩ := lefts h2
    rw [hf U x x1 x2 hI h3 h4]
  | inr x =>
    obtain ⟨x1, rfl, h3⟩ := rights h1
    obtain ⟨x2, rfl, h4⟩ := rights h2
    rw [hv U x x1 x2 hI h3 h4]

end

theorem prim_whole {α : Type} [DecidableEq α] {size : α → Nat} {put : α → Bytes} {get : Mode → Bytes → Except Err (α × Bytes)} {dflt : α}
    (m : Mode) (v : α) (rt : Rt) (b : Bytes) : stepD (primDict size put get dflt) m v ([], b) =
      ((primDict size put get dflt).merge m ((primDict size put get dflt).withRuntime rt) b).got := by
  simp only [stepD, primDict, if_true]
  cases get m b <;> rfl

/-- Writing the whole does not look at what was there. -/
theorem whole_write : (t : Ty) → t.WF → t.isState = true → ∀ m rt v b, At t rt v → stepD t.dict m v ([], b) =
    (t.dict.merge m (t.dict.withRuntime rt) b).got
  | .uint _, _, _, m, rt, v, b, _ => prim_whole m v rt b
  | .sint _, _, _, m, rt, v, b, _ => prim_whole m v rt b
  | .bool, _, _, m, rt, v, b, _ => prim_whole m v rt b
  | .box t, ht, hs, m, rt, v, b, hv => whole_write t ht hs m rt v b hv
  | .list t, _, _, m, rt, v, b, hv => by
    obtain ⟨rt', items⟩ := v
    obtain rfl : rt' = rt := hv.1
    rfl
  | .map k t, _, _, m, rt, v, b, hv => by
    obtain ⟨rt', items⟩ := v
    obtain rfl : rt' = rt := hv.1
    rfl
  | .struct true cached fs, _, _, m, rt, v, b, hv => by
    obtain ⟨rt', f⟩ := v
    obtain rfl : rt' = rt := hv.1 rfl
    rfl
  | .enum true cached fs vs, _, _, m, rt, v, b, hv => by
    obtain ⟨tag, he⟩ := at_enum_rt rfl hv
    simp only [stepD, Ty.dict, enumDict, if_true, enumHandle, enumHandleUpdate, he, Rt.parent_nested']

theorem keeps_at {t : Ty} (ht : t.WF) (hs : t.isState = true) {m : Mode} {rt : Rt} : ∀ v w v', At t rt v → stepD t.dict m v w = some v' → At t rt v' := by
  intro v w v' hv h
  obtain ⟨r, h⟩ := stepD_ok.1 h
  rcases (anyLaw t ht).handle hs m rt v w.1 .update none w.2 hv with ⟨x, r', h1, h2⟩ | ⟨x, e, h1, h2, h3⟩
  · rw [h] at h1; cases h1; exact h2
  · rw [h] at h1; cases h1

theorem entries_ext {α : Type} : ∀ {es es' : List (U32 × α)}, es.map (·.1) = es'.map (·.1) → (es.map (·.1)).Nodup →
    (∀ k, entriesGet k es = entriesGet k es') → es = es'
  | [], [], _, _, _ => rfl
  | (k, x) :: es, (k', x') :: es', h, hn, hg => by
    simp only [List.map_cons, List.cons.injEq] at h hn
    obtain ⟨rfl, h⟩ := h
    obtain ⟨hk, hn⟩ := List.nodup_cons.1 hn
    have h0 := hg k
    simp only [entriesGet, if_true, Option.some.injEq] at h0
    rw [h0, entries_ext h hn]
    intro j
    have hj := hg j
    simp only [entriesGet] at hj
    by_cases hkj : k = j
    · subst hkj
      rw [entriesGet_none.2 hk, entriesGet_none.2 (h ▸ hk)]
    · rwa [if_neg hkj, if_neg hkj] at hj

theorem redo_prim {α : Type} [DecidableEq α] {size : α → Nat} {put : α → Bytes} {get : Mode → Bytes → Except Err (α × Bytes)} {dflt : α}
    (m : Mode) (I : α → Prop) : Redoes (stepD (primDict size put get dflt) m) I Eq := by
  refine redo_leaf (fun _ => rfl) (fun v v' b x h => ?_) (fun v w v' hw h => ?_) I
  · rw [prim_whole m v Rt.dflt] at h
    rw [prim_whole m v' Rt.dflt, h]
  · obtain ⟨r, h⟩ := stepD_ok.1 h
    simp only [primDict, if_neg hw] at h
    cases h

theorem again_prim {α : Type} [DecidableEq α] {size : α → Nat} {put : α → Bytes} {get : Mode → Bytes → Except Err (α × Bytes)} {dflt : α}
    (m : Mode) (v v1 : α) (w : Write) (h : stepD (primDict size put get dflt) m v w = some v1) :
    ∃ v2, stepD (primDict size put get dflt) m v1 w = some v2 := by
  obtain ⟨p, b⟩ := w
  cases p with
  | nil =>
    rw [prim_whole m v Rt.dflt] at h
    exact ⟨v1, by rw [prim_whole m v1 Rt.dflt, h]⟩
  | cons k p =>
    obtain ⟨r, h⟩ := stepD_ok.1 h
    simp only [primDict, reduceCtorEq, if_false] at h

mutual
/-- Replaying updates again. -/
theorem redoTy : (t : Ty) → t.WF → t.isState = true → ∀ m rt, Redoes (stepD t.dict m) (At t rt) Eq
  | .uint _, _, _, m, _ => redo_prim m _
  | .sint _, _, _, m, _ => redo_prim m _
  | .bool, _, _, m, _ => redo_prim m _
  | .box t, ht, hs, m, rt => redoTy t ht hs m rt
  | .list t, ht, hs, m, rt => by
    have ih := redoTy t ht.2 ht.1 m
    refine redo_node (fun _ => rfl) (keeps_at ht hs)
      (fun v v' b x hv hv' h => by rw [whole_write _ ht hs m rt _ b hv] at h; rw [whole_write _ ht hs m rt _ b hv', h]) ?_
    intro U v v1 v2 hU hv h1 h2
    have hstep : ∀ (v : ListV t.El) (w : Write) (v' : ListV t.El), w ∈ U → stepD (Ty.list t).dict m v w = some v' →
        (stepD (Ty.list t).dict m ⟨rt, v.items⟩ w).map (·.items) = some v'.items ∧ v'.rt = v.rt := by
      intro v w v' hw h
      obtain ⟨p, b⟩ := w
      cases p with
      | nil => exact absurd rfl (hU _ hw)
      | cons k p =>
        obtain ⟨r, h⟩ := stepD_ok.1 h
        change listHandle t.dict m v (k :: p) .update none b = _ at h
        show (Res.got (listHandle t.dict m ⟨rt, v.items⟩ (k :: p) .update none b)).map _ = _ ∧ _
        simp only [listHandle] at h ⊢
        split at h
        · next item hi =>
          obtain ⟨x, h3, rfl⟩ := Res.map_ok h
          rw [h3]
          exact ⟨rfl, rfl⟩
        · cases h
    have hit : ∀ (l : List t.El) (k : U32) (p : List U32) (b : Bytes) (l' : List t.El),
        (stepD (Ty.list t).dict m ⟨rt, l⟩ (k :: p, b)).map (·.items) = some l' → l'.length = l.length ∧ ∀ i x, l[i]? = some x →
          ∃ x', l'[i]? = some x' ∧ if k.toNat = i then stepD t.dict m x (p, b) = some x' else x' = x := by
      intro l k p b l' h
      rw [Option.map_eq_some_iff] at h
      obtain ⟨v', h, rfl⟩ := h
      obtain ⟨r, h⟩ := stepD_ok.1 h
      change listHandle t.dict m ⟨rt, l⟩ (k :: p) .update none b = _ at h
      simp only [listHandle] at h
      split at h
      · next item hi =>
        obtain ⟨y, h3, rfl⟩ := Res.map_ok h
        refine ⟨by simp, fun i x hx => ?_⟩
        by_cases hk : k.toNat = i
        · subst hk
          rw [hi] at hx
          cases hx
          refine ⟨y, ?_, by rw [if_pos rfl]; exact stepD_ok.2 ⟨_, h3⟩⟩
          have := (List.getElem?_eq_some_iff.1 hi).1
          simp [this]
        · refine ⟨x, ?_, by rw [if_neg hk]⟩
          simp [List.getElem?_set, hk, hx]
      · cases h
    have p1 := runW_proj (step' := fun l w => (stepD (Ty.list t).dict m ⟨rt, l⟩ w).map (·.items)) (fun v : ListV t.El => v.items) id
      (fun v w v' hw h => (hstep v w v' hw h).1) h1
    have p2 := runW_proj (step' := fun l w => (stepD (Ty.list t).dict m ⟨rt, l⟩ w).map (·.items)) (fun v : ListV t.El => v.items) id
      (fun v w v' hw h => (hstep v w v' hw h).1) h2
    rw [List.map_id] at p1 p2
    have q2 := runW_const (fun v : ListV t.El => v.rt) (fun v w v' hw h => (hstep v w v' hw h).2) h2
    obtain ⟨hlen, heq⟩ := redo_items (E := Eq) (fun i => ih (rt.nested (fieldNo i))) hit U _ _ _ hU hv.2 p1 p2
    have hitems : v2.items = v1.items := by
      refine List.ext_getElem? fun i => ?_
      by_cases hi : i < v1.items.length
      · rw [List.getElem?_eq_getElem hi, List.getElem?_eq_getElem (hlen ▸ hi)]
        exact congrArg some (heq i _ _ (List.getElem?_eq_getElem hi) (List.getElem?_eq_getElem (hlen ▸ hi)))
      · rw [List.getElem?_eq_none (by omega), List.getElem?_eq_none (by omega)]
    obtain ⟨rt1, items1⟩ := v1
    obtain ⟨rt2, items2⟩ := v2
    cases q2
    cases hitems
    rfl
  | .map kt t, ht, hs, m, rt => by
    have ih := redoTy t ht.2 ht.1 m
    refine redo_node (fun _ => rfl) (keeps_at ht hs)
      (fun v v' b x hv hv' h => by rw [whole_write _ ht hs m rt _ b hv] at h; rw [whole_write _ ht hs m rt _ b hv', h]) ?_
    intro U v v1 v2 hU hv h1 h2
    have hv1 := runW_inv (keeps_at ht hs) hv h1
    have hv2 := runW_inv (keeps_at ht hs) hv1 h2
    have hstep : ∀ (v : MapV t.El) k p b (v' : MapV t.El), v.rt = rt → stepD (Ty.map kt t).dict m v (k :: p, b) = some v' →
        stepO (stepD t.dict m) (fun b => (t.dict.merge m (t.dict.withRuntime (rt.nested k)) b).got) none (entriesGet k v.entries) (p, b) =
          some (entriesGet k v'.entries) ∧ (∀ j, j ≠ k → entriesGet j v'.entries = entriesGet j v.entries) ∧ v'.rt = v.rt ∧
        k ∈ v'.entries.map (·.1) ∧ (k ∈ v.entries.map (·.1) → v'.entries.map (·.1) = v.entries.map (·.1)) ∧
        (∀ j ∈ v.entries.map (·.1), j ∈ v'.entries.map (·.1)) := by
      intro v k p b v' hrt h
      obtain ⟨r, h⟩ := stepD_ok.1 h
      change mapHandle kt t.dict m v (k :: p) .update none b = _ at h
      have put : ∀ y, stepO (stepD t.dict m) (fun b => (t.dict.merge m (t.dict.withRuntime (rt.nested k)) b).got) none (entriesGet k v.entries) (p, b) =
          some (some y) → v' = { v with entries := entriesInsert k y v.entries } →
          stepO (stepD t.dict m) (fun b => (t.dict.merge m (t.dict.withRuntime (rt.nested k)) b).got) none (entriesGet k v.entries) (p, b) =
          some (entriesGet k v'.entries) ∧ (∀ j, j ≠ k → entriesGet j v'.entries = entriesGet j v.entries) ∧ v'.rt = v.rt ∧
          k ∈ v'.entries.map (·.1) ∧ (k ∈ v.entries.map (·.1) → v'.entries.map (·.1) = v.entries.map (·.1)) ∧
          (∀ j ∈ v.entries.map (·.1), j ∈ v'.entries.map (·.1)) := by
        intro y hy he
        subst he
        refine ⟨by rw [hy, entriesGet_insert], fun j hj => entriesGet_other hj _ _, rfl, ?_, ?_, ?_⟩
        · show k ∈ (entriesInsert k y v.entries).map (·.1)
          rw [entriesInsert_keys]; split <;> simp_all
        · intro hk
          show (entriesInsert k y v.entries).map (·.1) = _
          rw [entriesInsert_keys, if_pos hk]
        · intro j hj
          show j ∈ (entriesInsert k y v.entries).map (·.1)
          rw [entriesInsert_keys]; split <;> simp_all
      simp only [mapHandle] at h
      split at h
      · next x hx =>
        obtain ⟨y, h3, rfl⟩ := Res.map_ok h
        refine put y ?_ rfl
        rw [hx]
        show (stepD t.dict m x (p, b)).map some = _
        rw [stepD_ok.2 ⟨_, h3⟩]
        rfl
      · next hx =>
        split at h
        · next hp =>
          obtain ⟨-, hp⟩ := hp
          subst hp
          rename stepD _ _ _ _ = _ => hd
          clear hd
          split at h
          · next y r' hm =>
            cases h
            refine put y ?_ rfl
            rw [hx]
            show (Res.got (t.dict.merge m (t.dict.withRuntime (rt.nested k)) b)).map some = _
            rw [← hrt, hm]
            rfl
          · cases h
        · cases h
    have hat : ∀ {v : MapV t.El}, At (.map kt t) rt v → ∀ k x, entriesGet k v.entries = some x → At t (rt.nested k) x :=
      fun hv k x hx => hv.2.2 _ (entriesGet_mem hx)
    have hget := redo_entries (fun k (v : MapV t.El) => entriesGet k v.entries) (f := stepD t.dict m)
      (fresh := fun k b => (t.dict.merge m (t.dict.withRuntime (rt.nested k)) b).got) (below := none)
      (S := stepD (Ty.map kt t).dict m) (fun v => v.rt = rt)
      (I := fun k => At t (rt.nested k)) (E := Eq) (fun _ => rfl) (fun k => keeps_at ht.2 ht.1) (fun k => ih (rt.nested k))
      (by
        intro k b x h
        obtain ⟨r, h⟩ := Res.got_some.1 h
        rcases (anyLaw t ht.2).merge m (rt.nested k) _ b ((anyLaw t ht.2).at_new _) with ⟨x', r', h3, h4⟩ | ⟨x', e, h3, h4⟩
        · rw [h] at h3; cases h3; exact h4
        · rw [h] at h3; cases h3)
      (fun k b x y hy h => by rw [whole_write t ht.2 ht.1 m (rt.nested k) y b hy]; exact h) (.inl rfl)
      (fun k v v' b x hv hv' h => by
        rw [whole_write _ ht.2 ht.1 m _ _ b hv] at h; rw [whole_write _ ht.2 ht.1 m _ _ b hv', h])
      (fun d k p b d' hd h => have h := hstep d k p b d' hd h; ⟨h.1, h.2.1, h.2.2.1.trans hd⟩)
      U v v1 v2 hv.1 hU (fun k x hx => hat hv k x hx) h1 h2
    -- all keys written are there after the first run
    have hkeys : ∀ {U : List Write} (v v' : MapV t.El), (∀ w ∈ U, w.1 ≠ []) → v.rt = rt → runW (stepD (Ty.map kt t).dict m) U v = some v' →
        (∀ j ∈ v.entries.map (·.1), j ∈ v'.entries.map (·.1)) ∧ (∀ w ∈ U, ∀ k p, w.1 = k :: p → k ∈ v'.entries.map (·.1)) ∧
        ((∀ w ∈ U, ∀ k p, w.1 = k :: p → k ∈ v.entries.map (·.1)) → v'.entries.map (·.1) = v.entries.map (·.1)) := by
      intro U
      induction U with
      | nil => intro v v' _ hr h; cases h; exact ⟨fun j hj => hj, by simp, fun _ => rfl⟩
      | cons w U ihU =>
        intro v v' hU hr h
        obtain ⟨u, h3, h4⟩ := runW_cons.1 h
        obtain ⟨p, b⟩ := w
        cases p with
        | nil => exact absurd rfl (hU _ List.mem_cons_self)
        | cons k p =>
          obtain ⟨-, -, hu, hk, hsame, hmono⟩ := hstep v k p b u hr h3
          obtain ⟨a1, a2, a3⟩ := ihU u v' (fun w hw => hU w (by simp [hw])) (hu.trans hr) h4
          refine ⟨fun j hj => a1 j (hmono j hj), ?_, ?_⟩
          · intro w hw k' p' hp
            rcases List.mem_cons.1 hw with rfl | hw
            · cases hp; exact a1 _ hk
            · exact a2 w hw k' p' hp
          · intro hall
            have hkv := hall _ List.mem_cons_self k p rfl
            rw [a3 (fun w hw k' p' hp => by rw [hsame hkv]; exact hall w (by simp [hw]) k' p' hp), hsame hkv]
    have hr1 := hv1.1
    have hr2 := hv2.1
    have hk2 : v2.entries.map (·.1) = v1.entries.map (·.1) := (hkeys v1 v2 hU hr1 h2).2.2 (hkeys v v1 hU hv.1 h1).2.1
    have heq : v2.entries = v1.entries := by
      refine entries_ext hk2 hv2.2.1 fun k => ?_
      rcases hget k with ⟨h3, h4⟩ | ⟨x, y, h3, h4, h5⟩
      · exact h4.trans h3.symm
      · subst h5; exact h4.trans h3.symm
    obtain ⟨rt1, e1⟩ := v1
    obtain ⟨rt2, e2⟩ := v2
    cases hr1
    cases hr2
    cases heq
    rfl
  | .struct true cached fs, ht, hs, m, rt => by
    have ih := redoFields fs ht.2 m rt
    refine redo_node (fun _ => rfl) (keeps_at ht hs)
      (fun v v' b x hv hv' h => by rw [whole_write _ ht hs m rt _ b hv] at h; rw [whole_write _ ht hs m rt _ b hv', h]) ?_
    intro U v v1 v2 hU hv h1 h2
    have hstep : ∀ (v : StructV fs.El) (w : Write) (v' : StructV fs.El), w ∈ U → stepD (Ty.struct true cached fs).dict m v w = some v' →
        stepF (fs.dict true) m v.fields w = some v'.fields ∧ v'.rt = v.rt := by
      intro v w v' hw h
      obtain ⟨p, b⟩ := w
      cases p with
      | nil => exact absurd rfl (hU _ hw)
      | cons k p =>
        obtain ⟨r, h⟩ := stepD_ok.1 h
        change structHandle (fs.dict true) m v (k :: p) .update none b = _ at h
        simp only [structHandle] at h
        split at h
        · next r' hr' =>
          obtain ⟨x, rfl, rfl⟩ := Res.map_ok h
          exact ⟨stepF_ok.2 ⟨_, hr'⟩, rfl⟩
        · cases h
    have p1 := runW_proj (fun v : StructV fs.El => v.fields) id (fun v w v' hw h => (hstep v w v' hw h).1) h1
    have p2 := runW_proj (fun v : StructV fs.El => v.fields) id (fun v w v' hw h => (hstep v w v' hw h).1) h2
    rw [List.map_id] at p1 p2
    have q2 := runW_const (fun v : StructV fs.El => v.rt) (fun v w v' hw h => (hstep v w v' hw h).2) h2
    have heq := ih U _ _ _ hv.2 p1 p2
    obtain ⟨rt1, items1⟩ := v1
    obtain ⟨rt2, items2⟩ := v2
    cases q2
    cases heq
    rfl
  | .enum true cached fs vs, ht, hs, m, rt => by
    have ih := fun own => redo_sum (tag := 0#32) (cached := cached) (redoFields fs ht.2.1 m (rt.nested 0#32)) (redoVariants vs ht.2.2.2.2 m rt own)
    refine redo_node (fun _ => rfl) (keeps_at ht hs)
      (fun v v' b x hv hv' h => by rw [whole_write _ ht hs m rt _ b hv] at h; rw [whole_write _ ht hs m rt _ b hv', h]) ?_
    intro U v v1 v2 hU hv h1 h2
    have hstep : ∀ (v : EnumV (fs.El ⊕ vs.El)) (w : Write) (v' : EnumV (fs.El ⊕ vs.El)), w ∈ U →
        stepD (Ty.enum true cached fs vs).dict m v w = some v' →
        stepV (variantsCons 0#32 cached (fs.dict true) (vs.dict true)) m v.val (w.1.tail, w.2) = some v'.val ∧ v'.rt = v.rt := by
      intro v w v' hw h
      obtain ⟨p, b⟩ := w
      cases p with
      | nil => exact absurd rfl (hU _ hw)
      | cons k p =>
        obtain ⟨r, h⟩ := stepD_ok.1 h
        change enumHandle (variantsCons 0#32 cached (fs.dict true) (vs.dict true)) (fun rt => .inl ((fs.dict true).init rt)) m v (k :: p) .update none b = _ at h
        simp only [enumHandle] at h
        split at h
        · obtain ⟨x, h3, rfl⟩ := Res.map_ok h
          exact ⟨stepV_ok.2 ⟨_, h3⟩, rfl⟩
        · cases h
    have p1 := runW_proj (fun v : EnumV (fs.El ⊕ vs.El) => v.val) (fun w => (w.1.tail, w.2)) (fun v w v' hw h => (hstep v w v' hw h).1) h1
    have p2 := runW_proj (fun v : EnumV (fs.El ⊕ vs.El) => v.val) (fun w => (w.1.tail, w.2)) (fun v w v' hw h => (hstep v w v' hw h).1) h2
    have q2 := runW_const (fun v : EnumV (fs.El ⊕ vs.El) => v.rt) (fun v w v' hw h => (hstep v w v' hw h).2) h2
    have hI : Sum.elim (AtFields fs true (rt.nested 0#32)) (AtVariant vs true rt v.rt) v.val := by
      obtain ⟨r, val⟩ := v
      cases val with
      | inl x => exact hv.2
      | inr x => exact hv
    have heq := ih v.rt _ _ _ _ hI p1 p2
    obtain ⟨rt1, items1⟩ := v1
    obtain ⟨rt2, items2⟩ := v2
    cases q2
    cases heq
    rfl

theorem redoFields : (fs : Fields) → fs.WF true → ∀ m rt, Redoes (stepF (fs.dict true) m) (AtFields fs true rt) Eq
  | .nil, _, m, rt => by
    intro U v v1 v2 _ _ _
    rfl
  | .cons tag attrs t fs, ht, m, rt => by
    have ih2 := redoFields fs ht.2.2.2 m rt
    have pair : ∀ {f : t.El → Write → Option t.El} {I : t.El → Prop}, Redoes f I Eq →
        (∀ (v : t.El × fs.El) p b v' r, (Fields.dict (.cons tag attrs t fs) true).handleField m tag v p .update none b = some (.ok v' r) →
          f v.1 (p, b) = some v'.1 ∧ v'.2 = v.2) →
        Redoes (stepF (Fields.dict (.cons tag attrs t fs) true) m) (fun v => I v.1 ∧ AtFields fs true rt v.2) Eq := by
      intro f I hf hstep U v v1 v2 hv h1 h2
      have := redo_pair (S := stepF (Fields.dict (.cons tag attrs t fs) true) m) (fun k => k == tag) hf ih2 ?_ (fun _ _ => rfl) U v v1 v2 hv h1 h2
      · exact Prod.ext this.1 this.2
      · intro v k p b v' h
        obtain ⟨r, h⟩ := stepF_ok.1 h
        by_cases hk : k = tag
        · rw [hk] at h
          rw [if_pos (by simp [hk])]
          exact hstep v p b v' r h
        · rw [if_neg (by simp [hk])]
          simp only [Fields.dict, fieldsCons, if_neg hk, Option.map_eq_some_iff] at h
          obtain ⟨r', h3, h4⟩ := h
          obtain ⟨y, rfl, rfl⟩ := Res.map_ok h4
          exact ⟨rfl, stepF_ok.2 ⟨_, h3⟩⟩
    by_cases hn : attrs.noState = true
    · have hfix : ∀ {U : List Write} {v v' : t.El}, runW (fun x _ => some x) U v = some v' → v' = v :=
        fun h => runW_const id (fun v w v' _ h => by cases h; rfl) h
      have := pair (f := fun x _ => some x) (I := fun x => ∃ rt', At t rt' x) (fun U v v1 v2 _ _ h2 => hfix h2) (by
        intro v p b v' r h
        simp only [Fields.dict, fieldsCons, hn, if_true] at h
        simp at h
        obtain ⟨rfl, _⟩ := h
        exact ⟨rfl, rfl⟩)
      intro U v v1 v2 hv
      refine this U v v1 v2 ?_
      have hv := hv
      simp only [AtFields, hn] at hv
      simpa using hv
    · have hn : attrs.noState = false := by simpa using hn
      have ih1 := redoTy t ht.2.2.1 (ht.2.1 (by simp [hn])) m (rt.nested tag)
      have := pair ih1 (by
        intro v p b v' r h
        simp only [Fields.dict, fieldsCons, hn] at h
        simp at h
        obtain ⟨y, h3, rfl⟩ := Res.map_ok h
        exact ⟨stepD_ok.2 ⟨_, h3⟩, rfl⟩)
      intro U v v1 v2 hv
      refine this U v v1 v2 ?_
      have hv := hv
      simp only [AtFields, hn] at hv
      simpa using hv

theorem redoVariants : (vs : Variants) → vs.WF true → ∀ m rt own, Redoes (stepV (vs.dict true) m) (AtVariant vs true rt own) Eq
  | .nil, _, _, _, _ => fun _ v => nomatch v
  | .cons tag cached fs vs, ht, m, rt, own => by
    have := redo_sum (tag := tag) (cached := cached) (redoFields fs ht.2.2.1 m (rt.nested tag)) (redoVariants vs ht.2.2.2 m rt own)
    intro U v v1 v2 hv
    refine this U v v1 v2 ?_
    cases v with
    | inl x => exact hv.2
    | inr x => exact hv
end

end Steit
