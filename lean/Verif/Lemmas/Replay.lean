import Verif.Lemmas.Log
import Verif.Lemmas.AnyTy
import Verif.Spec.Replay

/-! # Runtimes, roots and replay -/

namespace Steit
open Spec

theorem Rt.nested_path_ne (rt : Rt) (k : U32) : (rt.nested k).path ≠ [] := by simp [Rt.nested]

theorem Rt.parent_nested' (rt : Rt) (k : U32) : (rt.nested k).parent = .ok rt := by
  cases rt; simp [Rt.nested, Rt.parent]

theorem Rt.isRoot_nested (rt : Rt) (k : U32) : (rt.nested k).isRoot = false := by simp [Rt.nested, Rt.isRoot]

theorem at_enum_rt {ds cached : Bool} {fs : Fields} {vs : Variants} {rt : Rt} {v : (Ty.enum ds cached fs vs).El}
    (hd : ds = true) (h : At (.enum ds cached fs vs) rt v) : ∃ tag, v.rt = rt.nested tag := by
  rcases v with ⟨own, x | x⟩
  · exact ⟨_, h.1 hd⟩
  · exact ⟨_, ((atVariant_iff vs ds rt own x).1 h).1 hd⟩

/-- What `State::runtime` returns, by shape. -/
theorem runtime_at : (t : Ty) → t.isState = true → ∀ rt v, At t rt v →
    match shape t with
    | .prim => t.dict.runtime v = none
    | .plain => t.dict.runtime v = some rt
    | .enum => ∃ tag, t.dict.runtime v = some (rt.nested tag)
  | .uint _, _, _, _, _ => rfl
  | .sint _, _, _, _, _ => rfl
  | .bool, _, _, _, _ => rfl
  | .box t, h, rt, v, hv => runtime_at t h rt v hv
  | .list _, _, _, _, hv => congrArg some hv.1
  | .map _ _, _, _, _, hv => congrArg some hv.1
  | .struct true _ _, _, _, _, hv => congrArg some (hv.1 rfl)
  | .enum true cached fs vs, _, rt, v, hv => by
    obtain ⟨tag, h⟩ := at_enum_rt rfl hv
    exact ⟨tag, congrArg some h⟩

/-- What `State::is_root` returns, by shape. -/
theorem isRoot_at : (t : Ty) → t.isState = true → ∀ rt v, At t rt v →
    t.dict.isRoot v =
      match shape t with
      | .prim => .error .panic
      | .plain => .ok rt.isRoot
      | .enum => if isBox t then .ok false else .ok rt.isRoot
  | .uint _, _, _, _, _ => rfl
  | .sint _, _, _, _, _ => rfl
  | .bool, _, _, _, _ => rfl
  | .box t, h, rt, v, hv => by
    have hr := runtime_at t h rt v hv
    show isRootDefault t.dict.runtime v = _
    unfold isRootDefault
    simp only [shape, isBox]
    cases hs : shape t with
    | prim => rw [hs] at hr; simp only at hr; rw [hr]
    | plain => rw [hs] at hr; simp only at hr; rw [hr]
    | enum =>
      rw [hs] at hr; obtain ⟨tag, hr⟩ := hr; rw [hr]
      simp only [Rt.isRoot_nested]; rfl
  | .list _, _, _, _, hv => congrArg (fun r => Except.ok (Rt.isRoot r)) hv.1
  | .map _ _, _, _, _, hv => congrArg (fun r => Except.ok (Rt.isRoot r)) hv.1
  | .struct true _ _, _, _, _, hv => congrArg (fun r => Except.ok (Rt.isRoot r)) (hv.1 rfl)
  | .enum true cached fs vs, _, rt, v, hv => by
    obtain ⟨tag, h⟩ := at_enum_rt rfl hv
    show (do
        let parent ← v.rt.parent
        return parent.isRoot : Except Err Bool) = _
    rw [h, Rt.parent_nested']
    rfl

theorem prim_update {α : Type} [DecidableEq α] {size : α → Nat} {put : α → Bytes}
    {get : Mode → Bytes → Except Err (α × Bytes)} {dflt : α} (m : Mode) (v r v' : α) (key : Option U32) (bs rest : Bytes)
    (h : (primDict size put get dflt).merge m v bs = .ok v' rest) :
    (primDict size put get dflt).handle m r [] .update key bs = .ok v' rest := by
  simp only [primDict, if_true] at h ⊢
  cases hg : get m bs with
  | error e => rw [hg] at h; cases h
  | ok x => rw [hg] at h; exact h

/-- A whole-value update reads into a fresh object at the same place. -/
theorem handle_update_at : (t : Ty) → t.WF → t.isState = true → ∀ m rt r key bs v' rest, At t rt r →
    t.dict.merge m (t.dict.withRuntime rt) bs = .ok v' rest → t.dict.handle m r [] .update key bs = .ok v' rest
  | .uint _, _, _, m, _, r, key, bs, v', rest, _, h => prim_update m _ r v' key bs rest h
  | .sint _, _, _, m, _, r, key, bs, v', rest, _, h => prim_update m _ r v' key bs rest h
  | .bool, _, _, m, _, r, key, bs, v', rest, _, h => prim_update m _ r v' key bs rest h
  | .box t, ht, hs, m, rt, r, key, bs, v', rest, hr, h => handle_update_at t ht hs m rt r key bs v' rest hr h
  | .list t, _, _, m, rt, r, key, bs, v', rest, hr, h => by
    show listMerge t.dict m ⟨r.rt, []⟩ bs = _
    rw [hr.1]; exact h
  | .map k t, _, _, m, rt, r, key, bs, v', rest, hr, h => by
    show mapMerge k t.dict m ⟨r.rt, []⟩ bs = _
    rw [hr.1]; exact h
  | .struct true cached fs, _, _, m, rt, r, key, bs, v', rest, hr, h => by
    have he : r.rt = rt := hr.1 rfl
    subst he
    exact h
  | .enum true cached fs vs, _, _, m, rt, r, key, bs, v', rest, hr, h => by
    obtain ⟨tag, he⟩ := at_enum_rt rfl hr
    simp only [Ty.dict, enumDict, if_true, enumHandle, enumHandleUpdate, he, Rt.parent_nested'] at h ⊢
    exact h

/-! ### Failing structural entries change nothing -/

theorem Res.map_err {α β : Type} {r : Res α} {f : α → β} {w : β} {e : Err} (h : r.map f = .err w e) :
    ∃ v, r = .err v e ∧ w = f v := by
  cases r with
  | ok v rest => cases h
  | err v e' => cases h; exact ⟨v, rfl, rfl⟩

theorem Res.map_ok {α β : Type} {r : Res α} {f : α → β} {w : β} {rest : Bytes} (h : r.map f = .ok w rest) :
    ∃ v, r = .ok v rest ∧ w = f v := by
  cases r with
  | ok v rest' => cases h; exact ⟨v, rfl, rfl⟩
  | err v e' => cases h

theorem entriesInsert_same {α : Type} {k : U32} {x : α} {es : List (U32 × α)} (h : entriesGet k es = some x) :
    entriesInsert k x es = es := by
  induction es with
  | nil => cases h
  | cons e es ih =>
    obtain ⟨k', v'⟩ := e
    simp only [entriesGet, entriesInsert] at h ⊢
    by_cases hk : k' = k
    · rw [if_pos hk] at h ⊢; cases h; rfl
    · rw [if_neg hk] at h ⊢; rw [ih h]

theorem list_set_same {α : Type} {xs : List α} {i : Nat} {x : α} (h : xs[i]? = some x) : xs.set i x = xs := by
  obtain ⟨hi, rfl⟩ := List.getElem?_eq_some_iff.1 h
  exact List.set_getElem_self hi

theorem prim_atomic {α : Type} [DecidableEq α] {size : α → Nat} {put : α → Bytes}
    {get : Mode → Bytes → Except Err (α × Bytes)} {dflt : α} {m : Mode} {v v' : α} {path : List U32} {kind : LogKind}
    {key : Option U32} {bs : Bytes} {e : Err} (hk : kind ≠ .update)
    (h : (primDict size put get dflt).handle m v path kind key bs = .err v' e) : v' = v := by
  simp only [primDict, hk, if_false, ite_self] at h
  cases h; rfl

theorem variant_atomic {β : Type} {fs : FieldsD β} {m : Mode} {v v' : β} {path : List U32} {kind : LogKind}
    {key : Option U32} {bs : Bytes} {e : Err}
    (hf : ∀ m n v path kind key bs v' e, kind ≠ LogKind.update →
      fs.handleField m n v path kind key bs = some (.err v' e) → v' = v) (hk : kind ≠ .update)
    (h : variantHandle fs m v path kind key bs = .err v' e) : v' = v := by
  cases path with
  | nil => cases h; rfl
  | cons n path =>
    simp only [variantHandle] at h
    split at h
    · next r hr => subst h; exact hf _ _ _ _ _ _ _ _ _ hk hr
    · cases h; rfl

mutual
theorem handle_atomic : (t : Ty) → t.WF → t.isState = true → ∀ m v path kind key bs v' e, kind ≠ LogKind.update →
    t.dict.handle m v path kind key bs = .err v' e → v' = v
  | .uint _, _, _, _, _, _, _, _, _, _, _, hk, h => prim_atomic hk h
  | .sint _, _, _, _, _, _, _, _, _, _, _, hk, h => prim_atomic hk h
  | .bool, _, _, _, _, _, _, _, _, _, _, hk, h => prim_atomic hk h
  | .box t, ht, hs, m, v, path, kind, key, bs, v', e, hk, h => handle_atomic t ht hs m v path kind key bs v' e hk h
  | .list t, ht, _, m, v, path, kind, key, bs, v', e, hk, h => by
    simp only [Ty.dict, listDict, listHandle] at h
    cases path with
    | nil =>
      cases kind with
      | update => exact absurd rfl hk
      | listPush =>
        simp only at h
        split at h
        · cases h
        · cases h; rfl
      | listPop =>
        simp only at h
        split at h
        · cases h; rfl
        · cases h
      | mapRemove => cases h; rfl
    | cons n path =>
      simp only at h
      cases hi : v.items[n.toNat]? with
      | none => rw [hi] at h; cases h; rfl
      | some x =>
        rw [hi] at h
        obtain ⟨y, h1, h2⟩ := Res.map_err h
        have := handle_atomic t ht.2 ht.1 m x path kind key bs y e hk h1
        subst this
        rw [h2, list_set_same hi]
  | .map kt t, ht, _, m, v, path, kind, key, bs, v', e, hk, h => by
    simp only [Ty.dict, mapDict, mapHandle] at h
    cases path with
    | nil =>
      cases kind with
      | update => exact absurd rfl hk
      | listPush => cases h; rfl
      | listPop => cases h; rfl
      | mapRemove =>
        cases key with
        | none => cases h; rfl
        | some k =>
          simp only at h
          split at h
          · cases h
          · cases h; rfl
    | cons n path =>
      simp only at h
      cases hi : entriesGet n v.entries with
      | none =>
        rw [hi] at h
        simp only [hk, false_and, if_false] at h
        cases h; rfl
      | some x =>
        rw [hi] at h
        obtain ⟨y, h1, h2⟩ := Res.map_err h
        have := handle_atomic t ht.2 ht.1 m x path kind key bs y e hk h1
        subst this
        rw [h2, entriesInsert_same hi]
  | .struct true cached fs, ht, _, m, v, path, kind, key, bs, v', e, hk, h => by
    simp only [Ty.dict, structDict, if_true, structHandle] at h
    cases path with
    | nil =>
      cases kind with
      | update => exact absurd rfl hk
      | listPush => cases h; rfl
      | listPop => cases h; rfl
      | mapRemove => cases h; rfl
    | cons n path =>
      simp only at h
      cases hf : (fs.dict true).handleField m n v.fields path kind key bs with
      | none => rw [hf] at h; cases h; rfl
      | some r =>
        rw [hf] at h
        obtain ⟨y, h1, h2⟩ := Res.map_err h
        subst h1
        have := handle_atomicFields fs true ht.2 m n v.fields path kind key bs y e hk hf
        rw [h2, this]
  | .enum true cached fs vs, ht, _, m, v, path, kind, key, bs, v', e, hk, h => by
    simp only [Ty.dict, enumDict, if_true, enumHandle] at h
    cases path with
    | nil => simp only [hk, if_false] at h; cases h; rfl
    | cons n path =>
      simp only at h
      split at h
      · obtain ⟨y, h1, h2⟩ := Res.map_err h
        rw [h2]
        obtain ⟨own, x | x⟩ := v
        · obtain ⟨z, g1, g2⟩ := Res.map_err h1
          have := variant_atomic (handle_atomicFields fs true ht.2.1) hk g1
          rw [g2, this]
        · obtain ⟨z, g1, g2⟩ := Res.map_err h1
          have := handle_atomicVariant vs true ht.2.2.2.2 m x path kind key bs z e hk g1
          rw [g2, this]
      · cases h; rfl

theorem handle_atomicFields : (fs : Fields) → (ds : Bool) → fs.WF ds → ∀ m n v path kind key bs v' e,
    kind ≠ LogKind.update → (fs.dict ds).handleField m n v path kind key bs = some (.err v' e) → v' = v
  | .nil, _, _, _, _, _, _, _, _, _, _, _, _, h => by cases h
  | .cons tag attrs t fs, ds, hw, m, n, v, path, kind, key, bs, v', e, hk, h => by
    simp only [Fields.dict, fieldsCons] at h
    by_cases hn : n = tag
    · rw [if_pos hn] at h
      have h := Option.some.inj h
      by_cases hs : (ds && !attrs.noState) = true
      · rw [if_pos hs] at h
        obtain ⟨y, h1, h2⟩ := Res.map_err h
        rw [h2, handle_atomic t hw.2.2.1 (hw.2.1 hs) m v.1 path kind key bs y e hk h1]
      · rw [if_neg hs] at h; cases h
    · rw [if_neg hn] at h
      cases hf : (fs.dict ds).handleField m n v.2 path kind key bs with
      | none => rw [hf] at h; cases h
      | some r =>
        rw [hf] at h
        obtain ⟨y, h1, h2⟩ := Res.map_err (Option.some.inj h)
        subst h1
        rw [h2, handle_atomicFields fs ds hw.2.2.2 m n v.2 path kind key bs y e hk hf]

theorem handle_atomicVariant : (vs : Variants) → (ds : Bool) → vs.WF ds → ∀ m v path kind key bs v' e,
    kind ≠ LogKind.update → (vs.dict ds).handleFields m v path kind key bs = .err v' e → v' = v
  | .nil, _, _, _, v, _, _, _, _, _, _, _, _ => nomatch v
  | .cons tag cached fs vs, ds, hw, m, .inl x, path, kind, key, bs, v', e, hk, h => by
    obtain ⟨z, g1, g2⟩ := Res.map_err h
    rw [g2, variant_atomic (handle_atomicFields fs ds hw.2.2.1) hk g1]
  | .cons tag cached fs vs, ds, hw, m, .inr x, path, kind, key, bs, v', e, hk, h => by
    obtain ⟨z, g1, g2⟩ := Res.map_err h
    rw [g2, handle_atomicVariant vs ds hw.2.2.2 m x path kind key bs z e hk g1]
end

end Steit
