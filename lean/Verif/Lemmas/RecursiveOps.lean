import Verif.Lemmas.Recursive
import Verif.Lemmas.OpsAt

/-! # The same calls have the same effects -/

namespace Steit
open Spec

section
variable {α β γ δ : Type} {R : α → β → Prop} {Q : γ → δ → Prop}

theorem sameRun_ok {x : α} {y : β} (h : R x y) : SameRun R (pure x) (pure y) := fun _ => ⟨rfl, h⟩

theorem sameRun_error {e : Err} : SameRun R (Exec.ofExcept (.error e)) (Exec.ofExcept (.error e)) := fun _ => ⟨rfl, rfl⟩

theorem sameRun_refl (x : Exec α) : SameRun Eq x x := by
  intro w
  refine ⟨rfl, ?_⟩
  cases (x.run w).1 <;> rfl

theorem sameRun_bind {x : Exec α} {y : Exec β} {f : α → Exec γ} {g : β → Exec δ} (h : SameRun R x y)
    (hf : ∀ a b, R a b → SameRun Q (f a) (g b)) : SameRun Q (x >>= f) (y >>= g) := by
  intro w
  have hw := h w
  rw [Exec.run_bind, Exec.run_bind]
  generalize x.run w = p at hw
  generalize y.run w = q at hw
  obtain ⟨p, w1⟩ := p
  obtain ⟨q, w2⟩ := q
  obtain ⟨h1, h2⟩ := hw
  have h1 : w1 = w2 := h1
  subst h1
  cases p <;> cases q
  · exact ⟨rfl, h2⟩
  · exact absurd h2 (by simp)
  · exact absurd h2 (by simp)
  · exact hf _ _ h2 w1

theorem sameRun_map {x : Exec α} {y : Exec β} {f : α → γ} {g : β → δ} (h : SameRun R x y) (hf : ∀ a b, R a b → Q (f a) (g b)) :
    SameRun Q (f <$> x) (g <$> y) := sameRun_bind h fun a b hab => sameRun_ok (hf a b hab)

theorem sameRun_then {f : Exec γ} {g : Exec δ} (x : Exec Unit) (h : SameRun Q f g) :
    SameRun Q (x >>= fun _ => f) (x >>= fun _ => g) := sameRun_bind (sameRun_refl x) fun _ _ _ => h

end

section
variable {α β ω ω' : Type} {P : α → β → Prop} {O : ω → ω' → Prop} {j : Nat} {d : Dict α} {d' : Dict β}

theorem toBytesNow_same (h : DictRel P j d d') (m : Mode) {x : α} {y : β} (hx : P x y) : toBytesNow d m x = toBytesNow d' m y := by
  unfold toBytesNow Dict.toBytesFrom
  rw [h.toBytes m hx]

theorem logUpdate_same (h : DictRel P j d d') (m : Mode) (rt : Rt) {x : α} {y : β} (hx : P x y) :
    rt.logUpdate d m x = rt.logUpdate d' m y := by
  unfold Rt.logUpdate; rw [toBytesNow_same h m hx]

theorem logUpdateChild_same (h : DictRel P j d d') (m : Mode) (rt : Rt) (n : U32) {x : α} {y : β} (hx : P x y) :
    rt.logUpdateChild d m n x = rt.logUpdateChild d' m n y := by
  unfold Rt.logUpdateChild; rw [toBytesNow_same h m hx]

theorem logListPush_same (h : DictRel P j d d') (m : Mode) (rt : Rt) {x : α} {y : β} (hx : P x y) :
    rt.logListPush d m x = rt.logListPush d' m y := by
  unfold Rt.logListPush; rw [toBytesNow_same h m hx]

theorem listPushWith_same (h : DictRel P j d d') (m : Mode) {v : ListV α} {w : ListV β} (hv : SameListV P v w) {f : Rt → Exec α}
    {g : Rt → Exec β} (hf : ∀ rt, SameRun P (f rt) (g rt)) :
    SameRun (SamePair Eq (SameListV P)) (listPushWith d m v f) (listPushWith d' m w g) := by
  unfold listPushWith
  dsimp only
  rw [hv.1, sameItems_length hv.2]
  refine sameRun_then _ (sameRun_bind (hf _) fun a b hab => sameRun_then _ ?_)
  rw [logListPush_same h m _ hab]
  exact sameRun_then _ (sameRun_ok ⟨rfl, rfl, sameItems_append hv.2 (sameItems_one hab)⟩)

theorem listPop_same {v : ListV α} {w : ListV β} (hv : SameListV P v w) :
    SameRun (SamePair (SameOption P) (SameListV P)) (listPop v) (listPop w) := by
  unfold listPop
  by_cases hn : v.items = []
  · rw [if_neg (by simp [hn]), if_neg (by simp [(sameItems_nil hv.2).1 hn])]
    exact sameRun_ok ⟨trivial, hv⟩
  · rw [if_pos hn, if_pos (fun hw => hn ((sameItems_nil hv.2).2 hw)), hv.1]
    exact sameRun_then _ (sameRun_ok ⟨sameItems_getLast hv.2, rfl, sameItems_dropLast hv.2⟩)

theorem listSwapRemove_same (h : DictRel P j d d') (m : Mode) {v : ListV α} {w : ListV β} (hv : SameListV P v w) (i : Nat) :
    SameRun (SamePair (SameOption P) (SameListV P)) (listSwapRemove d m v i) (listSwapRemove d' m w i) := by
  unfold listSwapRemove
  have hg := sameItems_get hv.2 i
  have hl := sameItems_getLast hv.2
  cases hx : v.items[i]? <;> cases hy : w.items[i]? <;> rw [hx, hy] at hg
  · exact sameRun_ok ⟨trivial, hv⟩
  · exact absurd hg (by simp [SameOption])
  · exact absurd hg (by simp [SameOption])
  · cases hx' : v.items.getLast? <;> cases hy' : w.items.getLast? <;> rw [hx', hy'] at hl
    · exact sameRun_ok ⟨trivial, hv⟩
    · exact absurd hl (by simp [SameOption])
    · exact absurd hl (by simp [SameOption])
    · next removed removed' last last' =>
      dsimp only
      rw [sameItems_length hv.2]
      split
      · exact listPop_same hv
      · rw [toBytesNow_same h m (show P last last' from hl)]
        refine sameRun_bind (sameRun_refl _) fun a b hab => ?_
        subst hab
        rw [hv.1]
        refine sameRun_then _ ?_
        rw [h.wire]
        split
        · rw [h.runtime (show P removed removed' from hg)]
          refine sameRun_bind (sameRun_refl _) fun r r' hr => ?_
          subst hr
          exact sameRun_ok ⟨hg, rfl, sameItems_dropLast (sameItems_set hv.2 i (h.setRuntime r hl))⟩
        · exact sameRun_ok ⟨hg, rfl, sameItems_dropLast (sameItems_set hv.2 i hl)⟩

theorem runList_same (h : DictRel P j d d') (m : Mode) {run : Mode → ω → α → Exec α} {run' : Mode → ω' → β → Exec β}
    (hr : ∀ op op' x y, O op op' → P x y → SameRun P (run m op x) (run' m op' y)) {op : ListOp α ω} {op' : ListOp β ω'}
    (ho : SameListOp P O op op') {v : ListV α} {w : ListV β} (hv : SameListV P v w) :
    SameRun (SameListV P) (runList d run m op v) (runList d' run' m op' w) := by
  cases op <;> cases op' <;> simp only [SameListOp] at ho
  · obtain ⟨rfl, ho⟩ := ho
    next i op op' =>
    simp only [runList]
    have hg := sameItems_get hv.2 i
    cases hx : v.items[i]? <;> cases hy : w.items[i]? <;> rw [hx, hy] at hg
    · exact sameRun_ok hv
    · exact absurd hg (by simp [SameOption])
    · exact absurd hg (by simp [SameOption])
    · exact sameRun_bind (hr _ _ _ _ ho hg) fun a b hab => sameRun_ok ⟨hv.1, sameItems_set hv.2 i hab⟩
  · exact sameRun_map (listPushWith_same h m hv fun rt => sameRun_ok (h.setRuntime rt ho)) fun _ _ hx => hx.2
  · exact sameRun_map (listPushWith_same h m hv ho) fun _ _ hx => hx.2
  · exact sameRun_map (listPop_same hv) fun _ _ hx => hx.2
  · subst ho
    exact sameRun_map (listSwapRemove_same h m hv _) fun _ _ hx => hx.2

theorem mapInsert_same (h : DictRel P j d d') (m : Mode) {v : MapV α} {w : MapV β} (hv : SameMapV P v w) (k : U32) {x : α} {y : β}
    (hx : P x y) : SameRun (SamePair (SameOption P) (SameMapV P)) (mapInsert d m v k x) (mapInsert d' m w k y) := by
  unfold mapInsert
  rw [hv.1, logUpdateChild_same h m _ k hx]
  exact sameRun_then _ (sameRun_ok ⟨same_entriesGet k hv.2, rfl, same_entriesInsert k hx hv.2⟩)

theorem runMap_same (h : DictRel P j d d') (m : Mode) {run : Mode → ω → α → Exec α} {run' : Mode → ω' → β → Exec β}
    (hr : ∀ op op' x y, O op op' → P x y → SameRun P (run m op x) (run' m op' y)) {op : MapOp α ω} {op' : MapOp β ω'}
    (ho : SameMapOp P O op op') {v : MapV α} {w : MapV β} (hv : SameMapV P v w) :
    SameRun (SameMapV P) (runMap d run m op v) (runMap d' run' m op' w) := by
  cases op <;> cases op' <;> simp only [SameMapOp] at ho
  · obtain ⟨rfl, ho⟩ := ho
    next k op op' =>
    simp only [runMap]
    have hg := same_entriesGet k hv.2
    cases hx : entriesGet k v.entries <;> cases hy : entriesGet k w.entries <;> rw [hx, hy] at hg
    · exact sameRun_ok hv
    · exact absurd hg (by simp [SameOption])
    · exact absurd hg (by simp [SameOption])
    · exact sameRun_bind (hr _ _ _ _ ho hg) fun a b hab => sameRun_ok ⟨hv.1, same_entriesInsert k hab hv.2⟩
  · obtain ⟨rfl, ho⟩ := ho
    exact sameRun_map (mapInsert_same h m hv _ ho) fun _ _ hx => hx.2
  · obtain ⟨rfl, ho⟩ := ho
    refine sameRun_map (Q := SameMapV P) (R := SamePair (SameOption P) (SameMapV P)) ?_ fun _ _ hx => hx.2
    unfold mapInsertWith
    rw [hv.1]
    exact sameRun_then _ (sameRun_bind (ho _) fun a b hab => sameRun_then _ (mapInsert_same h m hv _ hab))
  · subst ho
    refine sameRun_map (Q := SameMapV P) (R := SamePair (SameOption P) (SameMapV P)) ?_ fun _ _ hx => hx.2
    unfold mapRemove
    rw [hv.1]
    exact sameRun_then _ (sameRun_ok ⟨same_entriesGet _ hv.2, rfl, same_entriesRemove _ hv.2⟩)

theorem runField_same (h : DictRel P j d d') (st : Bool) (tag : U32) (m : Mode) (rt : Rt) {run : Mode → ω → α → Exec α}
    {run' : Mode → ω' → β → Exec β} (hr : ∀ op op' x y, O op op' → P x y → SameRun P (run m op x) (run' m op' y))
    {op : FieldOp α ω} {op' : FieldOp β ω'} (ho : SameFieldOp P O op op') {v : α} {w : β} (hv : P v w) :
    SameRun P (runField st tag d run m rt op v) (runField st tag d' run' m rt op' w) := by
  cases op <;> cases op' <;> simp only [SameFieldOp] at ho
  · exact hr _ _ _ _ ho hv
  · simp only [runField]
    split
    · have hx := h.setRuntime (rt.nested tag) ho
      rw [logUpdateChild_same h m rt tag hx]
      exact sameRun_then _ (sameRun_ok hx)
    · exact sameRun_ok ho
  · simp only [runField]
    split
    · refine sameRun_then _ (sameRun_bind (ho _) fun a b hab => sameRun_then _ ?_)
      rw [logUpdateChild_same h m rt tag hab]
      exact sameRun_then _ (sameRun_ok hab)
    · exact sameRun_ok hv

theorem sameFieldOp_isSet {op : FieldOp α ω} {op' : FieldOp β ω'} (ho : SameFieldOp P O op op') : op.isSet = op'.isSet := by
  cases op <;> cases op' <;> simp only [SameFieldOp] at ho <;> rfl

end

theorem runEnum_same {γ δ : Type} {P : γ → δ → Prop} {j k : Nat} {d : Dict (EnumV γ)} {d' : Dict (EnumV δ)} {vs : VariantsD γ}
    {vs' : VariantsD δ} (hd : DictRel (SameEnumV P) k d d') (hvs : VariantsRel P j vs vs') (hj : 1 ≤ j) (m : Mode) (tag : U32)
    (isSet : Bool) {f : Rt → γ → Exec γ} {g : Rt → δ → Exec δ} (hf : ∀ rt x y, P x y → SameRun P (f rt x) (g rt y)) {v : EnumV γ}
    {w : EnumV δ} (hv : SameEnumV P v w) :
    SameRun (SameEnumV P) (runEnum d vs m tag isSet f v) (runEnum d' vs' m tag isSet g w) := by
  unfold runEnum
  rw [hvs.tagOf hv.2]
  refine sameRun_bind (R := SameEnumV P) ?_ ?_
  · split
    · rw [hv.1]
      refine sameRun_bind (sameRun_refl _) fun r r' hr => ?_
      subst hr
      have hc := hvs.ctor hj tag (some (r.nested tag))
      cases hx : vs.ctor tag (some (r.nested tag)) <;> cases hy : vs'.ctor tag (some (r.nested tag)) <;> rw [hx, hy] at hc
      · exact sameRun_ok hv
      · exact absurd hc (by simp [SameOption])
      · exact absurd hc (by simp [SameOption])
      · dsimp only
        rw [logUpdate_same hd m r (x := ⟨r.nested tag, _⟩) (y := ⟨r.nested tag, _⟩) ⟨rfl, hc⟩]
        exact sameRun_then _ (sameRun_ok ⟨rfl, hc⟩)
    · exact sameRun_ok hv
  · intro a b hab
    rw [hab.1]
    exact sameRun_bind (hf _ _ _ hab.2) fun x y hxy => sameRun_ok ⟨rfl, hxy⟩

section
variable {A B : Nat → Ty} {P : ∀ i, (A i).El → (B i).El → Prop} {O : ∀ i, (A i).Op → (B i).Op → Prop}

theorem RFields.isSet_same : (fs : RFields) → ∀ op op', RFields.SameOp P O fs op op' → (fs.fill A).isSet op = (fs.fill B).isSet op'
  | .nil, op, _, _ => nomatch op
  | .cons _ _ _ fs, op, op', h => by
    have h : SameSum (SameFieldOp _ _) (RFields.SameOp P O fs) op op' := h
    cases op <;> cases op' <;> simp only [SameSum] at h
    · exact sameFieldOp_isSet h
    · exact RFields.isSet_same fs _ _ h

theorem RVariants.isSet_same : (vs : RVariants) → ∀ op op', RVariants.SameOp P O vs op op' →
    (vs.fill A).isSet op = (vs.fill B).isSet op' ∧ (vs.fill A).opTag op = (vs.fill B).opTag op'
  | .nil, op, _, _ => nomatch op
  | .cons _ _ fs vs, op, op', h => by
    have h : SameSum (RFields.SameOp P O fs) (RVariants.SameOp P O vs) op op' := h
    cases op <;> cases op' <;> simp only [SameSum] at h
    · exact ⟨RFields.isSet_same fs _ _ h, rfl⟩
    · exact RVariants.isSet_same vs _ _ h

section
variable {j : Nat} (hP : ∀ i, Rel (P i) j (A i).dict (B i).dict)
  (hE : ∀ i x y x' y', P i x x' → P i y y' → (A i).eq x y = (B i).eq x' y') (hj : 1 ≤ j) (m : Mode)
  (hO : ∀ i op op' x y, O i op op' → P i x y → SameRun (P i) ((A i).run m op x) ((B i).run m op' y))

set_option linter.unusedSectionVars false
include hP hE hj hO

mutual
theorem RTy.run_same : (t : RTy) → ∀ op op' x y, RTy.SameOp P O t op op' → RTy.Same P t x y →
    SameRun (RTy.Same P t) ((t.fill A).run m op x) ((t.fill B).run m op' y)
  | .named i, op, op', x, y, ho, hx => hO i op op' x y ho hx
  | .box t, op, op', x, y, ho, hx => RTy.run_same t op op' x y ho hx
  | .list t, op, op', x, y, ho, hx => runList_same (RTy.rel hP hE t).1 m (RTy.run_same t) ho hx
  | .map _ t, op, op', x, y, ho, hx => runMap_same (RTy.rel hP hE t).1 m (RTy.run_same t) ho hx
  | .struct true _ fs, op, op', x, y, ho, hx => by
    have hx' : SameStructV (RFields.Same P fs) x y := hx
    show SameRun _ ((fs.fill A).run m x.rt op x.fields >>= _) ((fs.fill B).run m y.rt op' y.fields >>= _)
    rw [hx'.1]
    exact sameRun_bind (RFields.run_same fs y.rt op op' _ _ ho hx'.2) fun a b hab => sameRun_ok ⟨rfl, hab⟩
  | .enum true cached fs vs, op, op', x, y, ho, hx => by
    have hd := (RTy.rel hP hE (.enum true cached fs vs)).1
    have hvs := variantsCons_rel 0#32 cached (RFields.rel hP hE fs true) (RVariants.rel hP hE vs true)
    replace ho : SameSum (RFields.SameOp P O fs) (RVariants.SameOp P O vs) op op' := ho
    cases op <;> cases op' <;> simp only [SameSum] at ho
    · next op op' =>
      have he := RFields.isSet_same fs op op' ho
      rw [Ty.run, Ty.run, ← he]
      refine runEnum_same hd hvs hj m _ _ ?_ hx
      intro rt a b hab
      cases a <;> cases b <;> simp only [SameSum] at hab
      · exact sameRun_map (RFields.run_same fs rt _ _ _ _ ho hab) fun _ _ h => h
      · exact sameRun_ok hab
    · next op op' =>
      have he := RVariants.isSet_same vs op op' ho
      rw [Ty.run, Ty.run, ← he.1, ← he.2]
      refine runEnum_same hd hvs hj m _ _ ?_ hx
      intro rt a b hab
      cases a <;> cases b <;> simp only [SameSum] at hab
      · exact sameRun_ok hab
      · exact sameRun_map (RVariants.run_same vs rt _ _ _ _ ho hab) fun _ _ h => h
  | .uint _, op, _, _, _, _, _ => nomatch op
  | .sint _, op, _, _, _, _, _ => nomatch op
  | .bool, op, _, _, _, _, _ => nomatch op
  | .string, op, _, _, _, _, _ => nomatch op
  | .bytes, op, _, _, _, _, _ => nomatch op
  | .vec _, op, _, _, _, _, _ => nomatch op
  | .array _ _, op, _, _, _, _, _ => nomatch op
  | .tuple _, op, _, _, _, _, _ => nomatch op
  | .option _, op, _, _, _, _, _ => nomatch op
  | .hashMap _ _, op, _, _, _, _, _ => nomatch op
  | .struct false _ _, op, _, _, _, _, _ => nomatch op
  | .enum false _ _ _, op, _, _, _, _, _ => nomatch op

theorem RFields.run_same : (fs : RFields) → ∀ rt op op' x y, RFields.SameOp P O fs op op' → RFields.Same P fs x y →
    SameRun (RFields.Same P fs) ((fs.fill A).run m rt op x) ((fs.fill B).run m rt op' y)
  | .nil, _, op, _, _, _, _, _ => nomatch op
  | .cons tag attrs t fs, rt, op, op', x, y, ho, hx => by
    have ho : SameSum (SameFieldOp (RTy.Same P t) (RTy.SameOp P O t)) (RFields.SameOp P O fs) op op' := ho
    cases op <;> cases op' <;> simp only [SameSum] at ho
    · exact sameRun_bind (runField_same (RTy.rel hP hE t).1 _ tag m rt (RTy.run_same t) ho hx.1)
        fun a b hab => sameRun_ok ⟨hab, hx.2⟩
    · exact sameRun_bind (RFields.run_same fs rt _ _ _ _ ho hx.2) fun a b hab => sameRun_ok ⟨hx.1, hab⟩

theorem RVariants.run_same : (vs : RVariants) → ∀ rt op op' x y, RVariants.SameOp P O vs op op' → RVariants.Same P vs x y →
    SameRun (RVariants.Same P vs) ((vs.fill A).run m rt op x) ((vs.fill B).run m rt op' y)
  | .nil, _, op, _, _, _, _, _ => nomatch op
  | .cons tag cached fs vs, rt, op, op', x, y, ho, hx => by
    have ho : SameSum (RFields.SameOp P O fs) (RVariants.SameOp P O vs) op op' := ho
    have hx : SameSum (RFields.Same P fs) (RVariants.Same P vs) x y := hx
    cases op <;> cases op' <;> simp only [SameSum] at ho <;> cases x <;> cases y <;> simp only [SameSum] at hx
    · exact sameRun_map (RFields.run_same fs rt _ _ _ _ ho hx) fun _ _ h => h
    · exact sameRun_ok hx
    · exact sameRun_ok hx
    · exact sameRun_map (RVariants.run_same vs rt _ _ _ _ ho hx) fun _ _ h => h
end

end

end

end Steit
