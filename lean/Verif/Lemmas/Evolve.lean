import Verif.Lemmas.Boundary
import Verif.Lemmas.DecTy
import Verif.Spec.Evolve

/-! # Unknown, reordered and added fields -/

namespace Steit
open Spec

theorem feed_unknown : (fs : Fields) → (m : Mode) → (v : fs.El) → (w : WField) → w.OK → w.Skippable m →
    w.num ∉ fs.tags → feed fs m v w = .ok v []
  | .nil, m, v, w, hw, hs, _ => by
    have := skipField_skippable m w hw hs []
    rw [List.append_nil] at this
    simp only [feed, this]
  | .cons tag attrs t fs, m, v, w, hw, hs, hn => by
    simp only [Fields.tags, List.mem_cons, not_or] at hn
    simp only [feed, if_neg hn.1, feed_unknown fs m v.2 w hw hs hn.2, Res.map]

theorem feeds_unknown (fs : Fields) (m : Mode) : ∀ (ws : List WField) (v : fs.El),
    (∀ w ∈ ws, w.OK) → (∀ w ∈ ws, w.num ∉ fs.tags → w.Skippable m) →
    feeds fs m v ws = feeds fs m v (ws.filter (fun w => w.num ∈ fs.tags)) := by
  intro ws
  induction ws with
  | nil => intros; rfl
  | cons w ws ih =>
    intro v hw hs
    have ih := fun v => ih v (fun w h => hw w (by simp [h])) (fun w h => hs w (by simp [h]))
    by_cases hn : w.num ∈ fs.tags
    · simp only [List.filter_cons, hn, decide_true, if_true, feeds]
      cases feed fs m v w with
      | ok v' r => exact ih v'
      | err v' e => rfl
    · simp only [List.filter_cons, hn, decide_false, Bool.false_eq_true, if_false]
      rw [← ih v]
      simp only [feeds, feed_unknown fs m v w (hw w (by simp)) (hs w (by simp) hn) hn]

theorem feeds_nil_ok (m : Mode) : ∀ (ws : List WField) (v v' : Fields.nil.El),
    (∃ r, feeds .nil m v ws = .ok v' r) ↔ ∀ w ∈ ws, ∃ r, skipField m w.wire w.body = .ok r := by
  intro ws
  induction ws with
  | nil => intro v v'; simp [feeds]
  | cons w ws ih =>
    intro v v'
    simp only [feeds, feed, List.mem_cons, forall_eq_or_imp]
    cases h : skipField m w.wire w.body with
    | ok r => simp only [Except.ok.injEq, exists_eq', true_and]; exact ih v v'
    | error e => simp

/-- Success depends only on the fields of each number, in their order. -/
theorem feeds_order : (fs : Fields) → (m : Mode) → (ws ws' : List WField) → (v v' : fs.El) →
    (∀ n, ws.filter (fun w => w.num = n) = ws'.filter (fun w => w.num = n)) →
    (∃ r, feeds fs m v ws = .ok v' r) → ∃ r, feeds fs m v ws' = .ok v' r
  | .nil, m, ws, ws', v, v', hf, h => by
    rw [feeds_nil_ok] at h ⊢
    intro w hw
    have : w ∈ ws'.filter (fun x => x.num = w.num) := List.mem_filter.2 ⟨hw, by simp⟩
    rw [← hf] at this
    exact h w (List.mem_filter.1 this).1
  | .cons tag attrs t fs, m, ws, ws', v, v', hf, h => by
    rw [feeds_cons] at h ⊢
    refine ⟨hf tag ▸ h.1, feeds_order fs m _ _ v.2 v'.2 ?_ h.2⟩
    intro n
    rw [List.filter_filter, List.filter_filter]
    have h1 : ∀ l : List WField, l.filter (fun w => decide (w.num = n) && decide (w.num ≠ tag)) =
        (l.filter (fun w => w.num = n)).filter (fun w => w.num ≠ tag) := by
      intro l; rw [List.filter_filter]; congr 1; funext w; rw [Bool.and_comm]
    rw [h1, h1, hf]

theorem feeds_ok_nil {fs : Fields} {m : Mode} {v v' : fs.El} {ws : List WField} :
    (∃ r, feeds fs m v ws = .ok v' r) ↔ feeds fs m v ws = .ok v' [] := by
  constructor
  · rintro ⟨r, h⟩
    have := feeds_whole fs m ws v v' r h
    subst this
    exact h
  · exact fun h => ⟨_, h⟩

/-- A permutation of fields with distinct numbers keeps the fields of each number. -/
theorem filter_num_perm {ws ws' : List WField} (hp : ws.Perm ws') (hn : (ws.map WField.num).Nodup) (n : U32) :
    ws.filter (fun w => w.num = n) = ws'.filter (fun w => w.num = n) := by
  have h1 : ∀ l : List WField, (l.map WField.num).Nodup → (l.filter (fun w => w.num = n)).length ≤ 1 := by
    intro l
    induction l with
    | nil => intro _; simp
    | cons w l ih =>
      intro h
      rw [List.map_cons, List.nodup_cons] at h
      by_cases hw : w.num = n
      · have : l.filter (fun w => w.num = n) = [] := by
          rw [List.filter_eq_nil_iff]
          intro x hx hxn
          apply h.1
          rw [List.mem_map]
          exact ⟨x, hx, by rw [hw]; simpa using hxn⟩
        simp [List.filter_cons, hw, this]
      · simp only [List.filter_cons, hw, decide_false, Bool.false_eq_true, if_false]
        exact ih h.2
  have hp' := hp.filter (fun w => decide (w.num = n))
  have hl := h1 ws hn
  generalize ws.filter (fun w => decide (w.num = n)) = l at hp' hl ⊢
  match l, hl with
  | [], _ => exact (List.nil_perm.1 hp').symm ▸ rfl
  | [x], _ => exact List.singleton_perm.1 hp'
  | x :: y :: l, hl => simp at hl

theorem fieldsOf_nums : (fs : Fields) → (v : fs.El) → ((fieldsOf fs v).map WField.num).Sublist fs.tags
  | .nil, _ => List.Sublist.slnil
  | .cons tag attrs t fs, v => by
    simp only [fieldsOf, Fields.tags]
    split
    · exact (fieldsOf_nums fs v.2).cons tag
    · exact (fieldsOf_nums fs v.2).cons_cons tag

/-! ### Changing one field leaves the others alone -/

theorem feeds_other : (fs : Fields) → (m : Mode) → (w : WField) → (ws : List WField) → (v v1 v2 : fs.El) →
    feeds fs m v (w :: ws) = .ok v1 [] → feeds fs m v ws = .ok v2 [] → AgreeExcept fs w.num v1 v2
  | .nil, _, _, _, _, _, _, _, _ => trivial
  | .cons tag attrs t fs, m, w, ws, v, v1, v2, h1, h2 => by
    rw [← feeds_ok_nil, feeds_cons] at h1 h2
    obtain ⟨⟨r1, a1⟩, b1⟩ := h1
    obtain ⟨⟨r2, a2⟩, b2⟩ := h2
    by_cases hn : w.num = tag
    · refine ⟨fun h => absurd hn.symm h, ?_⟩
      simp only [List.filter_cons, ne_eq, hn, not_true_eq_false, decide_false, Bool.false_eq_true, if_false] at b1
      obtain ⟨r, b1⟩ := b1
      obtain ⟨r', b2⟩ := b2
      simp only [ne_eq] at b2
      rw [b1] at b2
      have e : v1.2 = v2.2 := by injection b2
      rw [e]
      exact AgreeExcept.refl fs _ _
    · simp only [List.filter_cons, hn, decide_false, Bool.false_eq_true, if_false] at a1
      rw [a1] at a2
      have e : v1.1 = v2.1 := by injection a2
      refine ⟨fun _ => e, ?_⟩
      simp only [List.filter_cons, ne_eq, hn, not_false_eq_true, decide_true, if_true] at b1
      exact feeds_other fs m w _ v.2 v1.2 v2.2 (feeds_ok_nil.1 b1) (feeds_ok_nil.1 b2)
where
  AgreeExcept.refl : (fs : Fields) → (n : U32) → (v : fs.El) → AgreeExcept fs n v v
    | .nil, _, _ => trivial
    | .cons _ _ _ fs, n, v => ⟨fun _ => rfl, AgreeExcept.refl fs n v.2⟩

/-! ### Schemas with added fields -/

theorem Spec.Evo.old_sub : (e : Evo) → e.old.tags.Sublist e.new.tags
  | .nil => List.Sublist.slnil
  | .keep tag _ _ e => e.old_sub.cons_cons tag
  | .add tag _ _ e => e.old_sub.cons tag

theorem Spec.Evo.old_wf (ds : Bool) : (e : Evo) → e.new.WF ds → e.old.WF ds
  | .nil, _ => trivial
  | .keep _ _ _ e, h => ⟨h.1, h.2.1, h.2.2.1, e.old_wf ds h.2.2.2⟩
  | .add _ _ _ e, h => e.old_wf ds h.2.2.2

theorem Spec.Evo.narrow_carried : (e : Evo) → (v : e.new.El) → CarriedFields e.new v → CarriedFields e.old (e.narrow v)
  | .nil, _, _ => trivial
  | .keep _ _ _ e, v, h => ⟨h.1, e.narrow_carried v.2 h.2⟩
  | .add _ _ _ e, v, h => e.narrow_carried v.2 h.2

theorem Spec.Evo.narrow_length : (e : Evo) → (v : e.new.El) →
    (encodeFields e.old (e.narrow v)).length ≤ (encodeFields e.new v).length
  | .nil, _ => Nat.le_refl _
  | .keep tag _ t e, v => by
    have := e.narrow_length v.2
    show ((if leftOut t v.1 (encode t v.1) then [] else leb (tag.toNat * 8 + wireOf t) ++ framed (wireOf t) (encode t v.1))
        ++ encodeFields e.old (e.narrow v.2)).length ≤
      ((if leftOut t v.1 (encode t v.1) then [] else leb (tag.toNat * 8 + wireOf t) ++ framed (wireOf t) (encode t v.1))
        ++ encodeFields e.new v.2).length
    rw [List.length_append, List.length_append]
    omega
  | .add tag _ t e, v => by
    have := e.narrow_length v.2
    show (encodeFields e.old (e.narrow v.2)).length ≤
      ((if leftOut t v.1 (encode t v.1) then [] else leb (tag.toNat * 8 + wireOf t) ++ framed (wireOf t) (encode t v.1))
        ++ encodeFields e.new v.2).length
    rw [List.length_append]
    omega

/-- Dropping what an old program does not know gives the fields it would have written. -/
theorem Spec.Evo.filter_old (tags : List U32) : (e : Evo) → e.new.tags.Nodup →
    (∀ n ∈ e.new.tags, n ∈ tags ↔ n ∈ e.old.tags) → (v : e.new.El) →
    (fieldsOf e.new v).filter (fun w => w.num ∈ tags) = fieldsOf e.old (e.narrow v)
  | .nil, _, _, _ => rfl
  | .keep tag attrs t e, hn, ht, v => by
    have hn := List.nodup_cons.1 hn
    have ih := e.filter_old tags hn.2 (fun n h => by
      rw [ht n (List.mem_cons_of_mem _ h)]
      constructor
      · intro h'
        rcases List.mem_cons.1 h' with rfl | h'
        · exact absurd h hn.1
        · exact h'
      · exact List.mem_cons_of_mem _) v.2
    have hm : tag ∈ tags := (ht tag List.mem_cons_self).2 List.mem_cons_self
    show ((if leftOut t v.1 (encode t v.1) then [] else [(⟨tag, wireTypeOf t, leb (tag.toNat * 8 + wireOf t),
        framed (wireOf t) (encode t v.1)⟩ : WField)]) ++ fieldsOf e.new v.2).filter (fun w => w.num ∈ tags) =
      (if leftOut t v.1 (encode t v.1) then [] else [(⟨tag, wireTypeOf t, leb (tag.toNat * 8 + wireOf t),
        framed (wireOf t) (encode t v.1)⟩ : WField)]) ++ fieldsOf e.old (e.narrow v.2)
    rw [List.filter_append, ih]
    split
    · rfl
    · simp [hm]
  | .add tag attrs t e, hn, ht, v => by
    have hn := List.nodup_cons.1 hn
    have ih := e.filter_old tags hn.2 (fun n h => ht n (List.mem_cons_of_mem _ h)) v.2
    have hm : tag ∉ tags := fun h => hn.1 (e.old_sub.subset ((ht tag List.mem_cons_self).1 h))
    show ((if leftOut t v.1 (encode t v.1) then [] else [(⟨tag, wireTypeOf t, leb (tag.toNat * 8 + wireOf t),
        framed (wireOf t) (encode t v.1)⟩ : WField)]) ++ fieldsOf e.new v.2).filter (fun w => w.num ∈ tags) =
      fieldsOf e.old (e.narrow v.2)
    rw [List.filter_append, ih]
    split
    · rfl
    · simp [hm]

theorem filter_fresh (tag : U32) (ws : List WField) (h : tag ∉ ws.map WField.num) :
    ws.filter (fun w => w.num = tag) = [] ∧ ws.filter (fun w => w.num ≠ tag) = ws := by
  constructor
  · rw [List.filter_eq_nil_iff]
    intro w hw he
    exact h (List.mem_map.2 ⟨w, hw, by simpa using he⟩)
  · rw [List.filter_eq_self]
    intro w hw
    simp only [ne_eq, decide_not, Bool.not_eq_eq_eq_not, Bool.not_true, decide_eq_false_iff_not]
    exact fun he => h (List.mem_map.2 ⟨w, hw, he⟩)

/-- A new program reading old data. -/
theorem Spec.Evo.feeds_old (ds : Bool) (m : Mode) (rt : Option Rt) : (e : Evo) → e.new.tags.Nodup → e.new.WF ds →
    (w : e.old.El) → CarriedFields e.old w → (encodeFields e.old w).length < 2 ^ 32 →
    ∃ v', feeds e.new m ((e.new.dict ds).init rt) (fieldsOf e.old w) = .ok v' [] ∧
      stripFields e.new v' = stripFields e.new (e.widen w)
  | .nil, _, _, _, _, _ => ⟨(), rfl, rfl⟩
  | .keep tag attrs t e, hn, hwf, w, hc, hl => by
    have hn := List.nodup_cons.1 hn
    simp only [encodeFields, List.length_append] at hl
    obtain ⟨y, h1, h2⟩ := e.feeds_old ds m rt hn.2 hwf.2.2.2 w.2 hc.2 (by omega)
    obtain ⟨rt', hi⟩ := fieldsCons_init (fs := e.new.dict ds) (decLaw t hwf.2.2.1) ds tag attrs rt
    have hi : ((Fields.cons tag attrs t e.new).dict ds).init rt = (t.dict.withRuntime rt', (e.new.dict ds).init rt) := hi
    obtain ⟨f1, f2⟩ := filter_fresh tag (fieldsOf e.old w.2) (fun h => hn.1 (e.old_sub.subset ((fieldsOf_nums _ _).subset h)))
    rw [hi]
    show ∃ v', feeds (.cons tag attrs t e.new) m _ (fieldsOf (.cons tag attrs t e.old) w) = _ ∧ _
    simp only [fieldsOf]
    by_cases hlo : leftOut t w.1 (encode t w.1)
    · refine ⟨(t.dict.withRuntime rt', y), ?_, ?_⟩
      · rw [← feeds_ok_nil, feeds_cons]
        simp only [hlo, if_true, List.nil_append, f1, f2, items]
        exact ⟨⟨_, rfl⟩, ⟨_, h1⟩⟩
      · simp only [stripFields, h2, Evo.widen]
        rw [(decLaw t hwf.2.2.1).lo_dflt w.1 rt' ⟨m, hc.1⟩ hlo]
    · rw [if_neg hlo, List.length_append] at hl
      obtain ⟨x, h3, h4⟩ := (decLaw t hwf.2.2.1).roundNested m rt' w.1 [] hc.1 (by omega)
      refine ⟨(x, y), ?_, ?_⟩
      · rw [← feeds_ok_nil, feeds_cons]
        rw [List.append_nil, dict_wire] at h3
        simp only [if_neg hlo, List.cons_append, List.nil_append, List.filter_cons, decide_true, if_true, f1, ne_eq,
          not_true_eq_false, decide_false, Bool.false_eq_true, if_false, items, h3]
        simp only [ne_eq] at f2
        rw [f2]
        exact ⟨⟨_, rfl⟩, ⟨_, h1⟩⟩
      · simp only [stripFields, h2, h4, Evo.widen]
  | .add tag attrs t e, hn, hwf, w, hc, hl => by
    have hn := List.nodup_cons.1 hn
    obtain ⟨y, h1, h2⟩ := e.feeds_old ds m rt hn.2 hwf.2.2.2 w hc hl
    obtain ⟨rt', hi⟩ := fieldsCons_init (fs := e.new.dict ds) (decLaw t hwf.2.2.1) ds tag attrs rt
    have hi : ((Fields.cons tag attrs t e.new).dict ds).init rt = (t.dict.withRuntime rt', (e.new.dict ds).init rt) := hi
    obtain ⟨f1, f2⟩ := filter_fresh tag (fieldsOf e.old w) (fun h => hn.1 (e.old_sub.subset ((fieldsOf_nums _ _).subset h)))
    rw [hi]
    show ∃ v', feeds (.cons tag attrs t e.new) m _ (fieldsOf e.old w) = _ ∧ _
    refine ⟨(t.dict.withRuntime rt', y), ?_, ?_⟩
    · rw [← feeds_ok_nil, feeds_cons, f1, f2]
      exact ⟨⟨_, rfl⟩, ⟨_, h1⟩⟩
    · simp only [stripFields, h2, Evo.widen]
      rw [(decLaw t hwf.2.2.1).dflt_eq, (decLaw t hwf.2.2.1).init_strip rt' Rt.dflt]

end Steit
