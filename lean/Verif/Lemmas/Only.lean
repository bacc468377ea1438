import Verif.Lemmas.Quiet
import Verif.Spec.Only

/-! # API calls use their object's logger only -/

namespace Steit
open Spec

variable {id : Nat}

theorem only_pure {α : Type} (a : α) : Only id (pure a : Exec α) := fun _ _ _ => rfl

theorem only_bind {α β : Type} {x : Exec α} {f : α → Exec β} (hx : Only id x) (hf : ∀ a, Only id (f a)) :
    Only id (x >>= f) := by
  intro w i hi
  rw [Exec.run_bind]
  have h1 := hx w i hi
  cases hw : x w with
  | mk r w1 =>
    rw [hw] at h1
    cases r with
    | ok a => exact (hf a w1 i hi).trans h1
    | error e => exact h1

theorem only_bind_at {α β : Type} {x : Exec α} {f : α → Exec β} (hx : Only id x)
    (hf : ∀ w a w', x w = (.ok a, w') → Only id (f a)) : Only id (x >>= f) := by
  intro w i hi
  rw [Exec.run_bind]
  have h1 := hx w i hi
  cases hw : x w with
  | mk r w1 =>
    rw [hw] at h1
    cases r with
    | ok a => exact (hf w a w1 hw w1 i hi).trans h1
    | error e => exact h1

theorem only_map {α β : Type} {x : Exec α} (f : α → β) (hx : Only id x) : Only id (f <$> x) :=
  only_bind (f := fun a => pure (f a)) hx (fun _ => only_pure _)

theorem only_ofExcept {α : Type} (x : Except Err α) : Only id (Exec.ofExcept x) := fun _ _ _ => rfl

theorem only_toBytes {α : Type} (d : Dict α) (m : Mode) (v : α) : Only id (toBytesNow d m v) := fun _ _ _ => rfl

theorem only_onLogger (f : LoggerSt → LoggerSt) : Only id (Exec.onLogger id f) := by
  intro w i hi
  show (if i = id then _ else _) = _
  rw [if_neg hi]

theorem only_log (rt : Rt) (e : Entry) : Only rt.logger (rt.log e) := only_onLogger _

theorem only_logUpdateChild {α : Type} (rt : Rt) (d : Dict α) (m : Mode) (k : U32) (v : α) :
    Only rt.logger (rt.logUpdateChild d m k v) := only_bind (only_toBytes d m v) (fun _ => only_log rt _)

theorem only_logUpdate {α : Type} (rt : Rt) (d : Dict α) (m : Mode) (v : α) : Only rt.logger (rt.logUpdate d m v) :=
  only_bind (only_toBytes d m v) (fun _ => only_log rt _)

theorem only_window {α β : Type} {rt : Rt} {f : Exec α} {g : α → Exec β} (hf : Only rt.logger f)
    (hg : ∀ x, Only rt.logger (g x)) :
    Only rt.logger (do
      rt.pauseLogger
      let x ← f
      rt.unpauseLogger
      g x : Exec β) :=
  only_bind (only_onLogger _) (fun _ => only_bind hf (fun x => only_bind (only_onLogger _) (fun _ => hg x)))

theorem only_pushWith {α : Type} (d : Dict α) (m : Mode) (l : ListV α) (f : Rt → Exec α)
    (hf : ∀ rt, Only rt.logger (f rt)) : Only l.rt.logger (listPushWith d m l f) :=
  only_window (hf (l.rt.nested (fieldNo l.items.length)))
    (fun _ => only_bind (only_bind (only_toBytes _ _ _) (fun _ => only_log _ _)) (fun _ => only_pure _))

theorem only_pop {α : Type} (l : ListV α) : Only l.rt.logger (listPop l) := by
  unfold listPop
  split
  · exact only_bind (only_log _ _) (fun _ => only_pure _)
  · exact only_pure _

theorem only_swapRemove {α : Type} (d : Dict α) (m : Mode) (l : ListV α) (i : Nat) :
    Only l.rt.logger (listSwapRemove d m l i) := by
  unfold listSwapRemove
  split
  · split
    · exact only_pop l
    · refine only_bind (only_toBytes _ _ _) (fun _ => only_bind (only_onLogger _) (fun _ => ?_))
      split
      · exact only_bind (only_ofExcept _) (fun _ => only_pure _)
      · exact only_pure _
  · exact only_pure _

theorem only_insert {α : Type} (d : Dict α) (m : Mode) (v : MapV α) (k : U32) (x : α) :
    Only v.rt.logger (mapInsert d m v k x) :=
  only_bind (only_logUpdateChild _ _ _ _ _) (fun _ => only_pure _)

theorem parent_logger {rt p : Rt} (h : rt.parent = .ok p) : p.logger = rt.logger := by
  unfold Rt.parent at h
  split at h
  · cases h
  · cases h; rfl

mutual
theorem only_run : (t : Ty) → t.WF → ∀ m op rt v, At t rt v → OpOnly t op → Only rt.logger (t.run m op v)
  | .uint _, _, _, op, _, _, _, _ => nomatch op
  | .sint _, _, _, op, _, _, _, _ => nomatch op
  | .bool, _, _, op, _, _, _, _ => nomatch op
  | .string, _, _, op, _, _, _, _ => nomatch op
  | .bytes, _, _, op, _, _, _, _ => nomatch op
  | .vec _, _, _, op, _, _, _, _ => nomatch op
  | .array _ _, _, _, op, _, _, _, _ => nomatch op
  | .tuple _, _, _, op, _, _, _, _ => nomatch op
  | .option _, _, _, op, _, _, _, _ => nomatch op
  | .hashMap _ _, _, _, op, _, _, _, _ => nomatch op
  | .struct false _ _, _, _, op, _, _, _, _ => nomatch op
  | .enum false _ _ _, _, _, op, _, _, _, _ => nomatch op
  | .box t, ht, m, op, rt, v, hv, h => only_run t ht m op rt v hv h
  | .list t, ht, m, op, rt, v, hv, h => by
    have hl : v.rt.logger = rt.logger := by rw [hv.1]
    cases op with
    | item i op =>
      simp only [Ty.run, runList]
      cases hx : v.items[i]? with
      | some x => exact only_bind (only_run t ht.2 m op (rt.nested (fieldNo i)) x (hv.2 i x hx) h) (fun _ => only_pure _)
      | none => exact only_pure _
    | push x => rw [← hl]; exact only_map _ (only_pushWith t.dict m v _ (fun _ => only_pure _))
    | pushWith f => rw [← hl]; exact only_map _ (only_pushWith t.dict m v f h)
    | pop => rw [← hl]; exact only_map _ (only_pop v)
    | swapRemove i => rw [← hl]; exact only_map _ (only_swapRemove t.dict m v i)
  | .map kt t, ht, m, op, rt, v, hv, h => by
    have hl : v.rt.logger = rt.logger := by rw [hv.1]
    cases op with
    | value k op =>
      simp only [Ty.run, runMap]
      cases hx : entriesGet k v.entries with
      | some x =>
        exact only_bind (only_run t ht.2 m op (rt.nested k) x (hv.2.2 _ (entriesGet_mem hx)) h) (fun _ => only_pure _)
      | none => exact only_pure _
    | insert k x => rw [← hl]; exact only_map _ (only_insert t.dict m v k x)
    | insertWith k f =>
      rw [← hl]; exact only_map _ (only_window (h (v.rt.nested k)) (fun _ => only_insert t.dict m v k _))
    | remove k => rw [← hl]; exact only_map _ (only_bind (only_log _ _) (fun _ => only_pure _))
  | .struct true _ fs, ht, m, op, rt, v, hv, h => by
    refine only_bind ?_ (fun _ => only_pure _)
    rw [hv.1 rfl]
    exact only_runFields fs ht.2 m rt op v.fields hv.2 h
  | .enum true cached fs vs, ht, m, op, rt, v, hv, h => by
    rw [enum_run_eq]
    have hwf : Variants.WF (allVariants cached fs vs) true := ⟨by decide, ht.1, ht.2.1, ht.2.2.2.2⟩
    have h' : OpOnlyVariant (allVariants cached fs vs) op := by rcases op with op | op <;> exact h
    have hcons : ∀ v, VarAt (allVariants cached fs vs) true rt v → Only rt.logger ((allVariants cached fs vs).run m
        (rt.nested (((allVariants cached fs vs).dict true).tagOf v)) op v) := by
      intro x hx
      rcases op with op | op <;> rcases x with x | x
      · exact only_map _ (only_runFields fs ht.2.1 m _ op x hx h)
      · exact only_pure _
      · exact only_pure _
      · exact only_map _ (only_runVariant vs ht.2.2.2.2 m rt op x hx h)
    unfold runEnum
    have hv' := (at_enum_iff cached fs vs rt v).1 hv
    refine only_bind_at (?_ : Only rt.logger _) (fun w u w' hu => ?_)
    · split
      · refine only_bind_at (only_ofExcept _) (fun w p w' hp => ?_)
        have hp' : v.rt.parent = .ok p := congrArg Prod.fst hp
        have hpl : p.logger = rt.logger := by rw [parent_logger hp', hv'.1]; rfl
        cases ((allVariants cached fs vs).dict true).ctor ((allVariants cached fs vs).opTag op) (some (p.nested ((allVariants cached fs vs).opTag op))) with
        | some val => rw [← hpl]; exact only_bind (only_logUpdate _ _ _ _) (fun _ => only_pure _)
        | none => exact only_pure _
      · exact only_pure _
    · have hat : At (.enum true cached fs vs) rt u := by
        split at hu
        · obtain ⟨parent, w2, hp, hu⟩ := Exec.bind_ok hu
          have hpar : parent = rt := by
            rw [hv'.1, Rt.parent_nested'] at hp
            cases hp; rfl
          subst hpar
          cases hval : ((allVariants cached fs vs).dict true).ctor ((allVariants cached fs vs).opTag op)
            (some (parent.nested ((allVariants cached fs vs).opTag op))) with
          | some val =>
            rw [hval] at hu
            obtain ⟨_, w3, _, hu⟩ := Exec.bind_ok hu
            obtain ⟨rfl, _⟩ := Exec.pure_ok hu
            have hc := (variantsAny (allVariants cached fs vs) true hwf).ctor_some rfl _ parent val hval
            rw [at_enum_iff]
            exact ⟨by rw [hc.2], hc.1⟩
          | none =>
            rw [hval] at hu
            obtain ⟨rfl, _⟩ := Exec.pure_ok hu
            exact hv
        · obtain ⟨rfl, _⟩ := Exec.pure_ok hu
          exact hv
      rw [at_enum_iff] at hat
      refine only_bind ?_ (fun _ => only_pure _)
      rw [hat.1]
      exact hcons u.val hat.2

theorem only_runFields : (fs : Fields) → fs.WF true → ∀ m rt op v, AtFields fs true rt v → OpOnlyFields fs op →
    Only rt.logger (fs.run m rt op v)
  | .nil, _, _, _, op, _, _, _ => nomatch op
  | .cons tag attrs t fs, hf, m, rt, .inl op, v, hv, h => by
    refine only_bind ?_ (fun _ => only_pure _)
    cases op with
    | inner op =>
      have hv1 := hv.1
      rw [if_pos (by rw [h.1]; rfl)] at hv1
      exact only_run t hf.2.2.1 m op (rt.nested tag) v.1 hv1 h.2
    | set x =>
      simp only [runField]
      split
      · exact only_bind (only_logUpdateChild _ _ _ _ _) (fun _ => only_pure _)
      · exact only_pure _
    | setWith f =>
      simp only [runField]
      split
      · exact only_window (h (rt.nested tag)) (fun _ => only_bind (only_logUpdateChild _ _ _ _ _) (fun _ => only_pure _))
      · exact only_pure _
  | .cons _ _ _ fs, hf, m, rt, .inr op, v, hv, h =>
    only_bind (only_runFields fs hf.2.2.2 m rt op v.2 hv.2 h) (fun _ => only_pure _)

theorem only_runVariant : (vs : Variants) → vs.WF true → ∀ m rt op v, VarAt vs true rt v → OpOnlyVariant vs op →
    Only rt.logger (vs.run m (rt.nested ((vs.dict true).tagOf v)) op v)
  | .nil, _, _, _, op, _, _, _ => nomatch op
  | .cons tag _ fs _, hv, m, rt, .inl op, .inl x, ha, h => only_map _ (only_runFields fs hv.2.2.1 m (rt.nested tag) op x ha h)
  | .cons _ _ _ vs, hv, m, rt, .inr op, .inr x, ha, h => only_map _ (only_runVariant vs hv.2.2.2 m rt op x ha h)
  | .cons _ _ _ _, _, _, _, .inl _, .inr _, _, _ => only_pure _
  | .cons _ _ _ _, _, _, _, .inr _, .inl _, _, _ => only_pure _
end

end Steit
