import Verif.Lemmas.Part

/-! # Two objects inside a state -/

namespace Steit
open Spec

/-- Two independently replaceable parts of a value. `P` and `P'` say that the value contains the part. -/
def Apart {τ σ σ' : Type} (P : τ → (σ → τ) → Prop) (P' : τ → (σ' → τ) → Prop) (u : σ) (u' : σ') (put : σ → τ) (put' : σ' → τ) :
    Prop :=
  ∃ put2 : σ → σ' → τ, (∀ x, put2 x u' = put x) ∧ (∀ y, put2 u y = put' y) ∧ (∀ x, P' (put x) (put2 x)) ∧
    ∀ y, P (put' y) (fun x => put2 x y)

theorem Apart.lift {τ τ₂ σ σ' : Type} {P : τ → (σ → τ) → Prop} {P' : τ → (σ' → τ) → Prop} {Q : τ₂ → (σ → τ₂) → Prop}
    {Q' : τ₂ → (σ' → τ₂) → Prop} {u : σ} {u' : σ'} {put : σ → τ} {put' : σ' → τ} (f : τ → τ₂)
    (hP : ∀ v g, P v g → Q (f v) (fun x => f (g x))) (hP' : ∀ v g, P' v g → Q' (f v) (fun x => f (g x)))
    (h : Apart P P' u u' put put') : Apart Q Q' u u' (fun x => f (put x)) (fun y => f (put' y)) := by
  obtain ⟨put2, h1, h2, h3, h4⟩ := h
  exact ⟨fun x y => f (put2 x y), fun x => congrArg f (h1 x), fun y => congrArg f (h2 y), fun x => hP' _ _ (h3 x), fun y => hP _ _ (h4 y)⟩

theorem Apart.symm {τ σ σ' : Type} {P : τ → (σ → τ) → Prop} {P' : τ → (σ' → τ) → Prop} {u : σ} {u' : σ'} {put : σ → τ}
    {put' : σ' → τ} (h : Apart P P' u u' put put') : Apart P' P u' u put' put := by
  obtain ⟨put2, h1, h2, h3, h4⟩ := h
  exact ⟨fun y x => put2 x y, h2, h1, h4, h3⟩

/-! ### Lens laws -/

theorem set_same {α : Type} {xs : List α} {i : Nat} {x : α} (h : xs[i]? = some x) : xs.set i x = xs := by
  obtain ⟨hi, rfl⟩ := List.getElem?_eq_some_iff.1 h
  exact List.set_getElem_self hi

theorem field_self {fs : Fields} {v : fs.El} {tag : U32} {s : Ty} {u : s.El} {put : s.El → fs.El}
    (h : FieldPart fs v tag s u put) : put u = v := by
  induction h with
  | head => rfl
  | @tail tag tag' attrs t fs v s u put _ ih => exact congrArg (Prod.mk v.1) ih

theorem field_put {fs : Fields} {v : fs.El} {tag : U32} {s : Ty} {u : s.El} {put : s.El → fs.El}
    (h : FieldPart fs v tag s u put) (x : s.El) : FieldPart fs (put x) tag s x put := by
  induction h with
  | @head tag attrs t fs v hs => exact .head (v := (x, v.2)) hs
  | @tail tag tag' attrs t fs v s u put _ ih => exact .tail (v := (v.1, put x)) (ih x)

theorem variant_self {vs : Variants} {v : vs.El} {vtag tag : U32} {s : Ty} {u : s.El} {put : s.El → vs.El}
    (h : VariantPart vs v vtag tag s u put) : put u = v := by
  induction h with
  | here hp => exact congrArg Sum.inl (field_self hp)
  | there _ ih => exact congrArg Sum.inr ih

theorem variant_put {vs : Variants} {v : vs.El} {vtag tag : U32} {s : Ty} {u : s.El} {put : s.El → vs.El}
    (h : VariantPart vs v vtag tag s u put) (x : s.El) : VariantPart vs (put x) vtag tag s x put := by
  induction h with
  | here hp => exact .here (field_put hp x)
  | there _ ih => exact .there (ih x)

theorem child_self {t : Ty} {v : t.El} {p : List U32} {s : Ty} {u : s.El} {put : s.El → t.El} (h : Child t v p s u put) :
    put u = v := by
  cases h with
  | @item _ l i _ hi hx =>
    show (⟨l.rt, l.items.set i u⟩ : ListV s.El) = l
    rw [set_same hx]
  | @value kt _ v pre post k _ hx hk =>
    show (⟨v.rt, pre ++ (k, u) :: post⟩ : MapV s.El) = v
    rw [← hx]
  | field hf => exact congrArg _ (field_self hf)
  | variant hv => exact congrArg _ (variant_self hv)

theorem child_put {t : Ty} {v : t.El} {p : List U32} {s : Ty} {u : s.El} {put : s.El → t.El} (h : Child t v p s u put)
    (x : s.El) : Child t (put x) p s x put := by
  cases h with
  | @item _ l i _ hi hx =>
    have h1 : (l.items.set i x)[i]? = some x := List.getElem?_set_self (List.getElem?_eq_some_iff.1 hx).1
    have h2 := Child.item (l := ⟨l.rt, l.items.set i x⟩) hi h1
    simp only [List.set_set] at h2
    exact h2
  | @value kt _ v pre post k _ hx hk => exact Child.value (v := ⟨v.rt, pre ++ (k, x) :: post⟩) rfl hk
  | @field cached fs v tag s u put hf => exact Child.field (v := ⟨v.rt, put x⟩) (field_put hf x)
  | @variant cached fs vs v vtag tag s u put hv => exact Child.variant (v := ⟨v.rt, put x⟩) (variant_put hv x)

theorem part_self {t : Ty} {v : t.El} {p : List U32} {s : Ty} {u : s.El} {put : s.El → t.El} (h : Part t v p s u put) :
    put u = v := by
  induction h with
  | self => rfl
  | box _ ih => exact ih
  | inside hc _ ih => exact (congrArg _ ih).trans (child_self hc)

theorem part_put {t : Ty} {v : t.El} {p : List U32} {s : Ty} {u : s.El} {put : s.El → t.El} (h : Part t v p s u put)
    (x : s.El) : Part t (put x) p s x put := by
  induction h with
  | self => exact .self
  | box _ ih => exact .box (ih x)
  | inside hc _ ih => exact .inside (child_put hc _) (ih x)

/-! ### Pairs -/

/-- A part, whatever its type. -/
abbrev SomePart (τ : Type) := Σ s : Ty, s.El × (s.El → τ)

theorem field_pair {fs : Fields} {v : fs.El} {tag tag' : U32} {s s' : Ty} {u : s.El} {u' : s'.El} {put : s.El → fs.El}
    {put' : s'.El → fs.El} (h : FieldPart fs v tag s u put) (h' : FieldPart fs v tag' s' u' put') (hn : fs.tags.Nodup) :
    (tag = tag' ∧ (⟨s, u, put⟩ : SomePart fs.El) = ⟨s', u', put'⟩) ∨
    (tag ≠ tag' ∧ Apart (fun v g => FieldPart fs v tag s u g) (fun v g => FieldPart fs v tag' s' u' g) u u' put put') := by
  induction h with
  | @head tag attrs t fs v hs =>
    cases h' with
    | head _ => exact .inl ⟨rfl, rfl⟩
    | @tail _ _ _ _ _ _ _ _ put' hp =>
      refine .inr ⟨?_, fun x y => (x, put' y), fun x => congrArg (Prod.mk x) (field_self hp), fun y => rfl,
        fun x => .tail (v := (x, v.2)) hp, fun y => .head (v := (v.1, put' y)) hs⟩
      rintro rfl
      exact (List.nodup_cons.1 hn).1 (fieldPart_mem hp)
  | @tail tag tag0 attrs t fs v s u put hp ih =>
    cases h' with
    | head hs =>
      refine .inr ⟨?_, fun x y => (y, put x), fun x => rfl, fun y => congrArg (Prod.mk y) (field_self hp),
        fun x => .head (v := (v.1, put x)) hs, fun y => .tail (v := (y, v.2)) hp⟩
      rintro rfl
      exact (List.nodup_cons.1 hn).1 (fieldPart_mem hp)
    | @tail _ _ _ _ _ _ _ _ put' hp' =>
      rcases ih hp' (List.nodup_cons.1 hn).2 with ⟨h1, h2⟩ | ⟨h1, h2⟩
      · cases h2
        exact .inl ⟨h1, rfl⟩
      · exact .inr ⟨h1, h2.lift (Prod.mk v.1) (fun w g hw => .tail (v := (v.1, w)) hw) (fun w g hw => .tail (v := (v.1, w)) hw)⟩

theorem variant_pair {vs : Variants} {v : vs.El} {vtag vtag' tag tag' : U32} {s s' : Ty} {u : s.El} {u' : s'.El}
    {put : s.El → vs.El} {put' : s'.El → vs.El} (h : VariantPart vs v vtag tag s u put)
    (h' : VariantPart vs v vtag' tag' s' u' put') (hw : vs.WF true) :
    vtag = vtag' ∧ ((tag = tag' ∧ (⟨s, u, put⟩ : SomePart vs.El) = ⟨s', u', put'⟩) ∨
    (tag ≠ tag' ∧
      Apart (fun v g => VariantPart vs v vtag tag s u g) (fun v g => VariantPart vs v vtag' tag' s' u' g) u u' put put')) := by
  induction h with
  | here hp =>
    cases h' with
    | here hp' =>
      refine ⟨rfl, ?_⟩
      rcases field_pair hp hp' hw.2.1 with ⟨h1, h2⟩ | ⟨h1, h2⟩
      · cases h2
        exact .inl ⟨h1, rfl⟩
      · exact .inr ⟨h1, h2.lift Sum.inl (fun w g hw => .here hw) (fun w g hw => .here hw)⟩
  | there hp ih =>
    cases h' with
    | there hp' =>
      obtain ⟨h0, h⟩ := ih hp' hw.2.2.2
      refine ⟨h0, ?_⟩
      rcases h with ⟨h1, h2⟩ | ⟨h1, h2⟩
      · cases h2
        exact .inl ⟨h1, rfl⟩
      · exact .inr ⟨h1, h2.lift Sum.inr (fun w g hw => .there hw) (fun w g hw => .there hw)⟩

theorem map_child {kt : KeyTy} {t : Ty} {v : MapV t.El} {k : U32} {x : t.El} (h : entriesGet k v.entries = some x) :
    Child (.map kt t) v [k] t x (fun y => { v with entries := entriesInsert k y v.entries }) := by
  obtain ⟨pre, x', post, h1, h2⟩ : ∃ pre x' post, v.entries = pre ++ (k, x') :: post ∧ ∀ e ∈ pre, e.1 ≠ k := by
    generalize v.entries = es at h
    induction es with
    | nil => cases h
    | cons e es ih =>
      obtain ⟨k', y⟩ := e
      by_cases hk : k' = k
      · subst hk
        exact ⟨[], y, es, rfl, by simp⟩
      · simp only [entriesGet, if_neg hk] at h
        obtain ⟨pre, x', post, rfl, h2⟩ := ih h
        refine ⟨(k', y) :: pre, x', post, rfl, ?_⟩
        intro e he
        rcases List.mem_cons.1 he with rfl | he
        · exact hk
        · exact h2 e he
  rw [h1, entriesGet_split h2] at h
  cases h
  have h3 := Child.value (kt := kt) h1 h2
  have h4 : (fun y => ({ v with entries := pre ++ (k, y) :: post } : MapV t.El)) =
      (fun y => { v with entries := entriesInsert k y v.entries }) := by
    funext y
    rw [h1, entriesInsert_split h2]
  rw [h4] at h3
  exact h3

theorem map_child_inv {kt : KeyTy} {t : Ty} {v : MapV t.El} {p : List U32} {s : Ty} {u : s.El}
    {put : s.El → (Ty.map kt t).El} (h : Child (.map kt t) v p s u put) : ∃ (k : U32) (x : t.El), p = [k] ∧
      entriesGet k v.entries = some x ∧ (⟨s, u, put⟩ : SomePart (MapV t.El)) =
        ⟨t, x, fun y => { v with entries := entriesInsert k y v.entries }⟩ := by
  cases h with
  | @value _ _ _ pre post k x hx hk =>
    refine ⟨k, x, rfl, by rw [hx, entriesGet_split hk], ?_⟩
    have h4 : (fun y => ({ v with entries := pre ++ (k, y) :: post } : MapV t.El)) =
        (fun y => { v with entries := entriesInsert k y v.entries }) := by
      funext y
      rw [hx, entriesInsert_split hk]
    rw [h4]

theorem entriesGet_other {α : Type} {k j : U32} (h : j ≠ k) (x : α) (es : List (U32 × α)) :
    entriesGet j (entriesInsert k x es) = entriesGet j es := by
  induction es with
  | nil => simp only [entriesInsert, entriesGet, if_neg (Ne.symm h)]
  | cons e es ih =>
    obtain ⟨k', x'⟩ := e
    simp only [entriesInsert]
    by_cases hk : k' = k
    · subst hk
      simp only [if_true, entriesGet, if_neg (Ne.symm h)]
    · simp only [if_neg hk, entriesGet, ih]

theorem entriesInsert_comm {α : Type} {k j : U32} (h : j ≠ k) (x y : α) (es : List (U32 × α)) (hk : k ∈ es.map (·.1))
    (hj : j ∈ es.map (·.1)) : entriesInsert j y (entriesInsert k x es) = entriesInsert k x (entriesInsert j y es) := by
  induction es with
  | nil => simp at hk
  | cons e es ih =>
    obtain ⟨k', x'⟩ := e
    simp only [List.map_cons, List.mem_cons] at hk hj
    by_cases h1 : k' = k
    · subst h1
      have h2 : k' ≠ j := Ne.symm h
      simp [entriesInsert, h2]
    · by_cases h2 : k' = j
      · subst h2
        simp [entriesInsert, h1]
      · simp only [entriesInsert, if_neg h1, if_neg h2]
        rw [ih (hk.resolve_left (Ne.symm h1)) (hj.resolve_left (Ne.symm h2))]

theorem child_pair {t : Ty} {v : t.El} {p p' : List U32} {s s' : Ty} {u : s.El} {u' : s'.El} {put : s.El → t.El}
    {put' : s'.El → t.El} (h : Child t v p s u put) (h' : Child t v p' s' u' put') (ht : t.WF) :
    (p = p' ∧ (⟨s, u, put⟩ : SomePart t.El) = ⟨s', u', put'⟩) ∨
      Apart (fun v g => Child t v p s u g) (fun v g => Child t v p' s' u' g) u u' put put' := by
  cases h with
  | @item _ l i _ hi hx =>
    cases h' with
    | @item _ _ j u' hj hx' =>
      by_cases hij : i = j
      · subst hij
        rw [hx] at hx'
        cases hx'
        exact .inl ⟨rfl, rfl⟩
      · refine .inr ⟨fun x y => ⟨l.rt, (l.items.set i x).set j y⟩, fun x => ?_, fun y => ?_, fun x => ?_, fun y => ?_⟩
        · show (⟨l.rt, (l.items.set i x).set j u'⟩ : ListV s.El) = ⟨l.rt, l.items.set i x⟩
          rw [set_same (by rw [List.getElem?_set_ne hij]; exact hx')]
        · show (⟨l.rt, (l.items.set i u).set j y⟩ : ListV s.El) = ⟨l.rt, l.items.set j y⟩
          rw [set_same hx]
        · exact Child.item (l := ⟨l.rt, l.items.set i x⟩) hj (by rw [List.getElem?_set_ne hij]; exact hx')
        · have := Child.item (l := ⟨l.rt, l.items.set j y⟩) hi (by rw [List.getElem?_set_ne (Ne.symm hij)]; exact hx)
          simp only [List.set_comm _ _ (Ne.symm hij)] at this
          exact this
  | @value kt _ v pre post k _ hx hk =>
    obtain ⟨k', x', rfl, h1, h2⟩ := map_child_inv h'
    obtain ⟨k0, x0, hkk, h1', h2'⟩ := map_child_inv (Child.value (kt := kt) hx hk)
    cases hkk
    by_cases hij : k = k'
    · subst hij
      rw [h1] at h1'
      cases h1'
      exact .inl ⟨rfl, h2'.trans h2.symm⟩
    · right
      cases h2
      have h3 : (fun y => ({ v with entries := pre ++ (k, y) :: post } : MapV s.El)) =
          (fun y => { v with entries := entriesInsert k y v.entries }) := by
        funext y
        rw [hx, entriesInsert_split hk]
      have hxu : entriesGet k v.entries = some u := by rw [hx, entriesGet_split hk]
      rw [h3]
      have hm : k ∈ v.entries.map (·.1) := List.mem_map.2 ⟨_, entriesGet_mem hxu, rfl⟩
      have hm' : k' ∈ v.entries.map (·.1) := List.mem_map.2 ⟨_, entriesGet_mem h1, rfl⟩
      refine ⟨fun a b => ⟨v.rt, entriesInsert k' b (entriesInsert k a v.entries)⟩, fun a => ?_, fun b => ?_, fun a => ?_,
        fun b => ?_⟩
      · show (⟨v.rt, entriesInsert k' x' (entriesInsert k a v.entries)⟩ : MapV s.El) = ⟨v.rt, entriesInsert k a v.entries⟩
        rw [entriesInsert_same]
        rw [entriesGet_other (Ne.symm hij), h1]
      · show (⟨v.rt, entriesInsert k' b (entriesInsert k u v.entries)⟩ : MapV s.El) = ⟨v.rt, entriesInsert k' b v.entries⟩
        rw [entriesInsert_same hxu]
      · exact map_child (v := ⟨v.rt, entriesInsert k a v.entries⟩) (by
          show entriesGet k' (entriesInsert k a v.entries) = _
          rw [entriesGet_other (Ne.symm hij), h1])
      · have h5 := map_child (kt := kt) (v := ⟨v.rt, entriesInsert k' b v.entries⟩) (k := k) (x := u) (by
          show entriesGet k (entriesInsert k' b v.entries) = _
          rw [entriesGet_other hij, hxu])
        have h6 : (fun a => (⟨v.rt, entriesInsert k a (entriesInsert k' b v.entries)⟩ : MapV s.El)) =
            (fun a => ⟨v.rt, entriesInsert k' b (entriesInsert k a v.entries)⟩) := by
          funext a
          rw [entriesInsert_comm hij _ _ _ hm' hm]
        exact h6 ▸ h5
  | @field cached fs v tag s u put hf =>
    cases h' with
    | @field _ _ _ tag' _ _ put' hf' =>
      rcases field_pair hf hf' ht.1 with ⟨rfl, h2⟩ | ⟨h1, h2⟩
      · cases h2
        exact .inl ⟨rfl, rfl⟩
      · exact .inr (h2.lift (fun w => (⟨v.rt, w⟩ : StructV fs.El)) (fun w g hw => .field (v := ⟨v.rt, w⟩) hw)
          (fun w g hw => .field (v := ⟨v.rt, w⟩) hw))
  | @variant cached fs vs v vtag tag s u put hv =>
    cases h' with
    | @variant _ _ _ _ vtag' tag' _ _ put' hv' =>
      obtain ⟨rfl, h⟩ := variant_pair hv hv' ⟨by decide, ht.1, ht.2.1, ht.2.2.2.2⟩
      rcases h with ⟨rfl, h2⟩ | ⟨h1, h2⟩
      · cases h2
        exact .inl ⟨rfl, rfl⟩
      · exact .inr (h2.lift (fun w => (⟨v.rt, w⟩ : EnumV (fs.El ⊕ vs.El))) (fun w g hw => .variant (v := ⟨v.rt, w⟩) hw)
          (fun w g hw => .variant (v := ⟨v.rt, w⟩) hw))

theorem part_pair {t : Ty} {v : t.El} {p p' : List U32} {s s' : Ty} {u : s.El} {u' : s'.El} {put : s.El → t.El}
    {put' : s'.El → t.El} (h : Part t v p s u put) (h' : Part t v p' s' u' put') (ht : t.WF) (hp : ¬ p <+: p')
    (hp' : ¬ p' <+: p) : Apart (fun v g => Part t v p s u g) (fun v g => Part t v p' s' u' g) u u' put put' := by
  induction h generalizing p' with
  | self => exact absurd (List.nil_prefix) hp
  | box h ih =>
    cases h' with
    | self => exact absurd (List.nil_prefix) hp'
    | box h' =>
      obtain ⟨put2, h1, h2, h3, h4⟩ := ih h' ht hp hp'
      exact ⟨put2, h1, h2, fun x => .box (h3 x), fun y => .box (h4 y)⟩
    | inside hc _ => cases hc
  | @inside t v p q c x put s u put1 hc h ih =>
    cases h' with
    | self => exact absurd (List.nil_prefix) hp'
    | box h' => cases hc
    | @inside _ _ p' q' c' x' put' _ _ put1' hc' h' =>
      rcases child_pair hc hc' ht with ⟨rfl, h2⟩ | h2
      · cases h2
        obtain ⟨put2, h1, h2, h3, h4⟩ := ih h' (wf_child hc ht).1 (fun h => hp ((List.prefix_append_right_inj p).2 h))
          (fun h => hp' ((List.prefix_append_right_inj p).2 h))
        exact ⟨fun a b => put (put2 a b), fun a => congrArg put (h1 a), fun b => congrArg put (h2 b),
          fun a => .inside (child_put hc _) (h3 a), fun b => .inside (child_put hc _) (h4 b)⟩
      · obtain ⟨put2, h1, h2, h3, h4⟩ := h2
        refine ⟨fun a b => put2 (put1 a) (put1' b), fun a => ?_, fun b => ?_, fun a => ?_, fun b => ?_⟩
        · show put2 (put1 a) (put1' u') = put (put1 a)
          rw [part_self h', h1]
        · show put2 (put1 u) (put1' b) = put' (put1' b)
          rw [part_self h, h2]
        · exact .inside (h3 (put1 a)) h'
        · exact .inside (h4 (put1' b)) h

end Steit
