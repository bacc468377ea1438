import Verif.Lemmas.Sync
import Verif.Lemmas.Only
import Verif.Spec.Part

/-! # Entries and calls concerning an object inside a state -/

namespace Steit
open Spec

theorem Res.map_id {α : Type} (r : Res α) : r.map (fun x => x) = r := by cases r <;> rfl
theorem Res.map_map {α β γ : Type} (r : Res α) (f : α → β) (g : β → γ) : (r.map f).map g = r.map (fun x => g (f x)) := by
  cases r <;> rfl

theorem fieldPart_mem {fs : Fields} {v : fs.El} {tag : U32} {s : Ty} {u : s.El} {put : s.El → fs.El}
    (h : FieldPart fs v tag s u put) : tag ∈ fs.tags := by
  induction h with
  | head => exact List.mem_cons_self ..
  | tail _ ih => exact List.mem_cons_of_mem _ ih

theorem handle_field {fs : Fields} {v : fs.El} {tag : U32} {s : Ty} {u : s.El} {put : s.El → fs.El}
    (h : FieldPart fs v tag s u put) (hn : fs.tags.Nodup) (m : Mode) (q : List U32) (kind : LogKind) (key : Option U32)
    (bs : Bytes) :
    (fs.dict true).handleField m tag v q kind key bs = some ((s.dict.handle m u q kind key bs).map put) := by
  induction h with
  | @head tag attrs t fs v hs =>
    show (if tag = tag then _ else _) = _
    rw [if_pos rfl, if_pos (by rw [hs]; rfl)]
  | @tail tag tag' attrs t fs v s u put hp ih =>
    have hn' := List.nodup_cons.1 hn
    show (if tag = tag' then _ else _) = _
    have hne : tag ≠ tag' := by
      rintro rfl
      exact hn'.1 (fieldPart_mem hp)
    rw [if_neg hne, ih hn'.2]
    exact congrArg some (Res.map_map _ _ _)

theorem variantPart_tag {vs : Variants} {v : vs.El} {vtag tag : U32} {s : Ty} {u : s.El} {put : s.El → vs.El}
    (h : VariantPart vs v vtag tag s u put) : (vs.dict true).tagOf v = vtag := by
  induction h with
  | here _ => rfl
  | there _ ih => exact ih

theorem handle_variant {vs : Variants} {v : vs.El} {vtag tag : U32} {s : Ty} {u : s.El} {put : s.El → vs.El}
    (h : VariantPart vs v vtag tag s u put) (hw : vs.WF true) (m : Mode) (q : List U32) (kind : LogKind) (key : Option U32)
    (bs : Bytes) :
    (vs.dict true).handleFields m v (tag :: q) kind key bs = (s.dict.handle m u q kind key bs).map put := by
  induction h with
  | @here vtag tag cached fs vs v s u put hp =>
    have hv : variantHandle (fs.dict true) m v (tag :: q) kind key bs = (s.dict.handle m u q kind key bs).map put := by
      simp only [variantHandle, handle_field hp hw.2.1]
    show (variantHandle (fs.dict true) m v (tag :: q) kind key bs).map Sum.inl = _
    rw [hv]
    exact Res.map_map _ _ _
  | @there vtag vtag' tag cached fs vs v s u put _ ih =>
    show ((vs.dict true).handleFields m v (tag :: q) kind key bs).map Sum.inr = _
    rw [ih hw.2.2.2]
    exact Res.map_map _ _ _

theorem entriesGet_split {α : Type} {pre post : List (U32 × α)} {k : U32} {x : α} (h : ∀ e ∈ pre, e.1 ≠ k) :
    entriesGet k (pre ++ (k, x) :: post) = some x := by
  induction pre with
  | nil => simp [entriesGet]
  | cons e pre ih =>
    obtain ⟨k', x'⟩ := e
    have := h (k', x') (List.mem_cons_self ..)
    simp only [List.cons_append, entriesGet]
    rw [if_neg this, ih (fun e he => h e (List.mem_cons_of_mem _ he))]

theorem entriesInsert_split {α : Type} {pre post : List (U32 × α)} {k : U32} {x y : α} (h : ∀ e ∈ pre, e.1 ≠ k) :
    entriesInsert k y (pre ++ (k, x) :: post) = pre ++ (k, y) :: post := by
  induction pre with
  | nil => simp [entriesInsert]
  | cons e pre ih =>
    obtain ⟨k', x'⟩ := e
    have := h (k', x') (List.mem_cons_self ..)
    simp only [List.cons_append, entriesInsert]
    rw [if_neg this, ih (fun e he => h e (List.mem_cons_of_mem _ he))]

theorem handle_child {t : Ty} {v : t.El} {p : List U32} {s : Ty} {u : s.El} {put : s.El → t.El} (h : Child t v p s u put)
    (ht : t.WF) (m : Mode) (q : List U32) (kind : LogKind) (key : Option U32) (bs : Bytes) :
    t.dict.handle m v (p ++ q) kind key bs = (s.dict.handle m u q kind key bs).map put := by
  cases h with
  | @item _ l i _ hi hx =>
    show listHandle s.dict m l (BitVec.ofNat 32 i :: q) kind key bs = _
    have hn : (BitVec.ofNat 32 i).toNat = i := by rw [BitVec.toNat_ofNat]; exact Nat.mod_eq_of_lt hi
    simp only [listHandle, hn, hx]
  | @value kt _ v pre post k _ hx hk =>
    show mapHandle kt s.dict m v (k :: q) kind key bs = _
    simp only [mapHandle, hx, entriesGet_split hk, entriesInsert_split hk]
  | @field cached fs v tag s u put hf =>
    show structHandle (fs.dict true) m v (tag :: q) kind key bs = _
    simp only [structHandle, handle_field hf ht.1]
    exact Res.map_map _ _ _
  | @variant cached fs vs v vtag tag s u put hv =>
    have hwf : Variants.WF (allVariants cached fs vs) true := ⟨by decide, ht.1, ht.2.1, ht.2.2.2.2⟩
    show enumHandle ((allVariants cached fs vs).dict true) (fun rt => .inl ((fs.dict true).init rt)) m v (vtag :: tag :: q) kind key bs = _
    simp only [enumHandle, if_pos (variantPart_tag hv).symm]
    rw [handle_variant hv hwf]
    exact Res.map_map _ _ _

theorem wf_field {fs : Fields} {v : fs.El} {tag : U32} {s : Ty} {u : s.El} {put : s.El → fs.El}
    (h : FieldPart fs v tag s u put) (hw : fs.WF true) : s.WF ∧ s.isState = true := by
  induction h with
  | head hs => exact ⟨hw.2.2.1, hw.2.1 (by rw [hs]; rfl)⟩
  | tail _ ih => exact ih hw.2.2.2

theorem wf_variant {vs : Variants} {v : vs.El} {vtag tag : U32} {s : Ty} {u : s.El} {put : s.El → vs.El}
    (h : VariantPart vs v vtag tag s u put) (hw : vs.WF true) : s.WF ∧ s.isState = true := by
  induction h with
  | here hp => exact wf_field hp hw.2.2.1
  | there _ ih => exact ih hw.2.2.2

theorem wf_child {t : Ty} {v : t.El} {p : List U32} {s : Ty} {u : s.El} {put : s.El → t.El} (h : Child t v p s u put)
    (ht : t.WF) : s.WF ∧ s.isState = true := by
  cases h with
  | item => exact ⟨ht.2, ht.1⟩
  | value => exact ⟨ht.2, ht.1⟩
  | field hf => exact wf_field hf ht.2
  | @variant cached fs vs v vtag tag s u put hv => exact wf_variant hv ⟨by decide, ht.1, ht.2.1, ht.2.2.2.2⟩

theorem wf_part {t : Ty} {v : t.El} {p : List U32} {s : Ty} {u : s.El} {put : s.El → t.El} (h : Part t v p s u put)
    (ht : t.WF) (hs : t.isState = true) : s.WF ∧ s.isState = true := by
  induction h with
  | self => exact ⟨ht, hs⟩
  | box _ ih => exact ih ht hs
  | inside hc _ ih =>
    obtain ⟨h1, h2⟩ := wf_child hc ht
    exact ih h1 h2

theorem handle_part {t : Ty} {v : t.El} {p : List U32} {s : Ty} {u : s.El} {put : s.El → t.El} (h : Part t v p s u put)
    (ht : t.WF) (m : Mode) (q : List U32) (kind : LogKind) (key : Option U32) (bs : Bytes) :
    t.dict.handle m v (p ++ q) kind key bs = (s.dict.handle m u q kind key bs).map put := by
  induction h with
  | self => exact (Res.map_id _).symm
  | box _ ih => exact ih ht
  | @inside t v p q' c x put s u put' hc hp ih =>
    rw [List.append_assoc, handle_child hc ht, ih (wf_child hc ht).1]
    exact Res.map_map _ _ _

/-! ### Addresses -/

theorem at_field {fs : Fields} {v : fs.El} {tag : U32} {s : Ty} {u : s.El} {put : s.El → fs.El}
    (h : FieldPart fs v tag s u put) {rt : Rt} (hv : AtFields fs true rt v) : At s (rt.nested tag) u := by
  induction h with
  | head hs =>
    have := hv.1
    rw [if_pos (by rw [hs]; rfl)] at this
    exact this
  | tail _ ih => exact ih hv.2

theorem at_variant {vs : Variants} {v : vs.El} {vtag tag : U32} {s : Ty} {u : s.El} {put : s.El → vs.El}
    (h : VariantPart vs v vtag tag s u put) {rt : Rt} (hv : VarAt vs true rt v) : At s ((rt.nested vtag).nested tag) u := by
  induction h with
  | here hp => exact at_field hp hv
  | there _ ih => exact ih hv

theorem at_child {t : Ty} {v : t.El} {p : List U32} {s : Ty} {u : s.El} {put : s.El → t.El} (h : Child t v p s u put)
    {rt : Rt} (hv : At t rt v) : At s ⟨rt.logger, rt.path ++ p⟩ u := by
  cases h with
  | @item _ l i _ hi hx => exact hv.2 i u hx
  | @value kt _ v pre post k _ hx hk => exact hv.2.2 (k, u) (by rw [hx]; simp)
  | field hf => exact at_field hf hv.2
  | @variant cached fs vs v vtag tag s u put hp =>
    have := at_variant hp ((at_enum_iff cached fs vs rt v).1 hv).2
    simpa [Rt.nested, List.append_assoc] using this

theorem at_part {t : Ty} {v : t.El} {p : List U32} {s : Ty} {u : s.El} {put : s.El → t.El} (h : Part t v p s u put)
    {rt : Rt} (hv : At t rt v) : At s ⟨rt.logger, rt.path ++ p⟩ u := by
  induction h generalizing rt with
  | self => rw [List.append_nil]; exact hv
  | box _ ih => exact ih hv
  | inside hc _ ih =>
    rw [← List.append_assoc]
    exact ih (at_child hc hv)

/-! ### Calls -/

theorem Exec.map_map {α β γ : Type} (x : Exec α) (f : α → β) (g : β → γ) :
    ((f <$> x) >>= fun b => (pure (g b) : Exec γ)) = (fun a => g (f a)) <$> x := by
  show Exec.bind (Exec.bind x fun a => .pure (f a)) (fun b => .pure (g b)) = Exec.bind x (fun a => .pure (g (f a)))
  induction x with
  | ret r => cases r <;> rfl
  | act id h k ih => exact congrArg (Exec.act id h) (funext ih)
  | mem k ih => exact congrArg Exec.mem (funext ih)

theorem Exec.map_id {α : Type} (x : Exec α) : (fun a => a) <$> x = x := by
  show Exec.bind x (fun a => .pure a) = x
  induction x with
  | ret r => cases r <;> rfl
  | act id h k ih => exact congrArg (Exec.act id h) (funext ih)
  | mem k ih => exact congrArg Exec.mem (funext ih)

theorem run_field {fs : Fields} {v : fs.El} {tag : U32} {s : Ty} {u : s.El} {put : s.El → fs.El}
    (h : FieldPart fs v tag s u put) (op : s.Op) :
    ∃ op' : fs.Op, fs.isSet op' = false ∧ (∀ m rt, fs.run m rt op' v = put <$> s.run m op u) ∧
      (OpAddr s op u → OpAddrFields fs op' v) ∧ (OpSync s op u → OpSyncFields fs op' v) ∧
      (OpOnly s op → OpOnlyFields fs op') := by
  induction h with
  | head hs => exact ⟨.inl (.inner op), rfl, fun m rt => rfl, fun h => h, fun h => ⟨hs, h⟩, fun h => ⟨hs, h⟩⟩
  | @tail tag tag' attrs t fs v s u put _ ih =>
    obtain ⟨op', h1, h2, h3, h4, h5⟩ := ih op
    refine ⟨.inr op', h1, fun m rt => ?_, h3, h4, h5⟩
    show (do
      let y ← fs.run m rt op' v.2
      pure (v.1, y) : Exec _) = _
    rw [h2]
    exact Exec.map_map _ _ _

theorem run_variant {vs : Variants} {v : vs.El} {vtag tag : U32} {s : Ty} {u : s.El} {put : s.El → vs.El}
    (h : VariantPart vs v vtag tag s u put) (op : s.Op) :
    ∃ op' : vs.Op, vs.isSet op' = false ∧ (∀ m rt, vs.run m rt op' v = put <$> s.run m op u) ∧
      (OpAddr s op u → OpAddrVariant vs op' v) ∧ (OpSync s op u → OpSyncVariant vs op' v) ∧
      (OpOnly s op → OpOnlyVariant vs op') := by
  induction h with
  | here hp =>
    obtain ⟨op', h1, h2, h3, h4, h5⟩ := run_field hp op
    refine ⟨.inl op', h1, fun m rt => ?_, h3, h4, h5⟩
    simp only [Variants.run, h2]
    exact Exec.map_map _ _ _
  | there _ ih =>
    obtain ⟨op', h1, h2, h3, h4, h5⟩ := ih op
    refine ⟨.inr op', h1, fun m rt => ?_, h3, h4, h5⟩
    simp only [Variants.run, h2]
    exact Exec.map_map _ _ _

theorem run_child {t : Ty} {v : t.El} {p : List U32} {s : Ty} {u : s.El} {put : s.El → t.El} (h : Child t v p s u put)
    {rt : Rt} (hat : At t rt v) (op : s.Op) : ∃ op' : t.Op, (∀ m, t.run m op' v = put <$> s.run m op u) ∧
      (OpAddr s op u → OpAddr t op' v) ∧ (OpSync s op u → OpSync t op' v) ∧ (OpOnly s op → OpOnly t op') := by
  cases h with
  | @item _ l i _ hi hx =>
    refine ⟨.item i op, fun m => ?_, fun h x hx' => ?_, fun h x hx' => ⟨hi, ?_⟩, fun h => h⟩
    · simp only [Ty.run, runList, hx]
      rfl
    · rw [hx] at hx'; cases hx'; exact h
    · rw [hx] at hx'; cases hx'; exact h
  | @value kt _ v pre post k _ hx hk =>
    have key : ∀ e ∈ v.entries, e.1 = k → e.2 = u := by
      intro e he hek
      have h1 : ((pre ++ (k, u) :: post).map (·.1)).Nodup := by rw [← hx]; exact hat.2.1
      rw [hx] at he
      simp only [List.map_append, List.map_cons, List.nodup_append, List.nodup_cons] at h1
      rcases List.mem_append.1 he with he | he
      · exact absurd hek (hk e he)
      · rcases List.mem_cons.1 he with rfl | he
        · rfl
        · exact absurd (List.mem_map.2 ⟨e, he, hek⟩) h1.2.1.1
    refine ⟨.value k op, fun m => ?_, fun h e he hek => ?_, fun h e he hek => ?_, fun h => h⟩
    · simp only [Ty.run, runMap, hx, entriesGet_split hk, entriesInsert_split hk]
      rfl
    · rw [key e he hek]; exact h
    · rw [key e he hek]; exact h
  | @field cached fs v tag s u put hf =>
    obtain ⟨op', _, h2, h3, h4, h5⟩ := run_field hf op
    refine ⟨op', fun m => ?_, h3, h4, h5⟩
    simp only [Ty.run, h2]
    exact Exec.map_map _ _ _
  | @variant cached fs vs v vtag tag s u put hv =>
    obtain ⟨op', h1, h2, h3, h4, h5⟩ := run_variant hv op
    refine ⟨op', fun m => ?_, fun h => (opAddr_enum cached fs vs op' v).2 (h3 h),
      fun h => (opSync_enum cached fs vs op' v).2 ⟨fun hs => ?_, h4 h⟩, fun h => ?_⟩
    · rw [enum_run_eq]
      unfold runEnum
      rw [if_neg (fun h => by rw [h1] at h; cases h.2)]
      show (do
        let val ← (allVariants cached fs vs).run m v.rt op' v.val
        pure { v with val } : Exec (EnumV (fs.El ⊕ vs.El))) = _
      rw [h2]
      exact Exec.map_map _ _ _
    · exact absurd (hs.symm.trans h1) (by decide)
    · have := h5 h
      rcases op' with op' | op' <;> exact this

/-- A call on an object inside is a call on the whole, with the same side conditions. -/
theorem run_part {t : Ty} {v : t.El} {p : List U32} {s : Ty} {u : s.El} {put : s.El → t.El} (h : Part t v p s u put)
    {rt : Rt} (hat : At t rt v) (op : s.Op) : ∃ op' : t.Op, (∀ m, t.run m op' v = put <$> s.run m op u) ∧
      (OpAddr s op u → OpAddr t op' v) ∧ (OpSync s op u → OpSync t op' v) ∧ (OpOnly s op → OpOnly t op') := by
  induction h generalizing rt with
  | self => exact ⟨op, fun m => (Exec.map_id _).symm, fun h => h, fun h => h, fun h => h⟩
  | box _ ih => exact ih hat op
  | inside hc _ ih =>
    obtain ⟨op1, h1, h2, h3, h4⟩ := ih (at_child hc hat) op
    obtain ⟨op2, h5, h6, h7, h8⟩ := run_child hc hat op1
    refine ⟨op2, fun m => ?_, fun h => h6 (h2 h), fun h => h7 (h3 h), fun h => h8 (h4 h)⟩
    rw [h5, h1]
    exact Exec.map_map _ _ _

end Steit
