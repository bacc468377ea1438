import Verif.Lemmas.RedoCs

/-! # The order of a dictionary does not matter to the client -/

namespace Steit
open Spec

/-- Both fail alike, or both succeed with related results. -/
def ExRel {α β : Type} (E : α → β → Prop) : Except Exn α → Except Exn β → Prop
  | .ok x, .ok y => E x y
  | .error a, .error b => a = b
  | _, _ => False

theorem ExRel.map {α β α' β' : Type} {E : α → β → Prop} {F : α' → β' → Prop} {x : Except Exn α} {y : Except Exn β} (h : ExRel E x y)
    {f : α → α'} {g : β → β'} (hf : ∀ a b, E a b → F (f a) (g b)) : ExRel F (do
      let a ← x
      .ok (f a)) (do
      let b ← y
      .ok (g b)) := by
  cases x <;> cases y
  · exact h
  · exact h.elim
  · exact h.elim
  · exact hf _ _ h

/-- The same is read, and put into related objects. -/
theorem ExRel.read {α α' β' : Type} {F : α' → β' → Prop} (x : Except Exn α)
    {f : α → α'} {g : α → β'} (hf : ∀ a, F (f a) (g a)) : ExRel F (do
      let a ← x
      .ok (f a)) (do
      let b ← x
      .ok (g b)) := by
  cases x with
  | error e => rfl
  | ok y => exact hf y

variable {ρ : Bytes → Str}

theorem ExRel.descend {β : Type} {E : β → β → Prop} {P : β → Except Exn β} {B : U32 → List U32 → β → Except Exn β} {c c' : β}
    (hc : E c c') (hP : ∀ c c', E c c' → ExRel E (P c) (P c')) (hB : ∀ k p c c', E c c' → ExRel E (B k p c) (B k p c')) (path : List U32) :
    ExRel E (descend P B path c) (descend P B path c') := by
  cases path with
  | nil => exact hP c c' hc
  | cons k p => exact hB k p c c' hc

theorem alike_set {α : Type} {E : α → α → Prop} {l l' : List α} (h : List.Forall₂ E l l') {x y : α} (hxy : E x y) :
    ∀ i, List.Forall₂ E (l.set i x) (l'.set i y) := by
  induction h with
  | nil => intro i; exact .nil
  | cons h1 h2 ih =>
    intro i
    cases i with
    | zero => exact .cons hxy h2
    | succ i => exact .cons h1 (ih i)

theorem forall₂_get {α : Type} {E : α → α → Prop} {l l' : List α} (h : List.Forall₂ E l l') :
    ∀ i : Nat, Option.Rel E l[i]? l'[i]? := by
  induction h with
  | nil => intro i; exact .none
  | cons h1 h2 ih =>
    intro i
    cases i with
    | zero => exact .some h1
    | succ i => simpa using ih i

theorem alike_dropLast {α : Type} {E : α → α → Prop} {l l' : List α} (h : List.Forall₂ E l l') :
    List.Forall₂ E l.dropLast l'.dropLast := by
  induction h with
  | nil => exact .nil
  | cons h1 h2 ih =>
    cases h2 with
    | nil => exact .nil
    | cons h3 h4 => exact .cons h1 ih

theorem forall₂_snoc {α : Type} {E : α → α → Prop} {l l' : List α} (h : List.Forall₂ E l l') {x y : α} (hxy : E x y) :
    List.Forall₂ E (l ++ [x]) (l' ++ [y]) := by
  induction h with
  | nil => exact .cons hxy .nil
  | cons h1 h2 ih => exact .cons h1 ih

theorem replaceAt_alike : (fs : Fields) → ∀ tag wire bs (c c' : fs.Cs), AlikeFields fs c c' →
    ExRel (fun x y => AlikeFields fs x.1 y.1) (fs.csReplaceAt ρ tag wire bs c) (fs.csReplaceAt ρ tag wire bs c')
  | .nil, tag, wire, bs, c, c', h => by
    simp only [Fields.csReplaceAt]
    exact ExRel.read _ fun _ => trivial
  | .cons tag' _ t fs, tag, wire, bs, c, c', h => by
    simp only [Fields.csReplaceAt]
    by_cases hk : tag = tag'
    · rw [if_pos hk, if_pos hk]
      exact ExRel.read (t.csDeserialize ρ bs) fun a => ⟨alike_refl t _, h.2⟩
    · rw [if_neg hk, if_neg hk]
      exact (replaceAt_alike fs tag wire bs c.2 c'.2 h.2).map fun a b hab => ⟨h.1, hab⟩

theorem performFields_alike (fs : Fields) (act : CsAct) (c c' : fs.Cs) (h : AlikeFields fs c c') :
    ExRel (AlikeFields fs) (fs.csPerform ρ act c) (fs.csPerform ρ act c') := by
  cases act with
  | update tag value =>
    simp only [Fields.csPerform]
    cases fs.csGetWireType tag with
    | none => exact h
    | some wire => exact (replaceAt_alike fs tag wire value c c' h).map fun _ _ h => h
  | push _ => rfl
  | pop => rfl
  | remove _ => rfl

theorem perform_alike : (t : Ty) → ∀ (act : CsAct) (c c' : t.Cs), Alike t c c' → ExRel (Alike t) (t.csPerform ρ act c) (t.csPerform ρ act c')
  | .box t, act, c, c', h => perform_alike t act c c' h
  | .list t, .update tag value, c, c', h => by
    have hl : c.length = c'.length := List.Forall₂.length_eq h
    simp only [Ty.csPerform, hl]
    split
    · rfl
    · exact ExRel.read (t.csDeserialize ρ value) fun a => alike_set h (alike_refl t _) _
  | .list t, .push item, c, c', h => ExRel.read (t.csDeserialize ρ item) fun a => forall₂_snoc h (alike_refl t _)
  | .list t, .pop, c, c', h => by
    simp only [Ty.csPerform]
    change List.Forall₂ _ c c' at h
    cases h with
    | nil => rfl
    | cons h1 h2 => exact alike_dropLast (.cons h1 h2)
  | .list t, .remove _, _, _, _ => rfl
  | .map kt t, .update tag value, c, c', h => by
    refine ExRel.read (t.csDeserialize ρ value) fun a k => ?_
    rw [lookup_dictSet, lookup_dictSet]
    split
    · exact .some (alike_refl t _)
    · exact h k
  | .map kt t, .remove key, c, c', h => by
    simp only [Ty.csPerform]
    have hk := h key
    have : (c.lookup key).isNone = (c'.lookup key).isNone := by
      revert hk
      cases c.lookup key <;> cases c'.lookup key <;> intro hk <;> first | rfl | cases hk
    rw [this]
    split
    · rfl
    · intro k
      show Option.Rel _ ((dictRemove key c).lookup k) ((dictRemove key c').lookup k)
      rw [lookup_dictRemove, lookup_dictRemove]
      split
      · exact .none
      · exact h k
  | .map _ _, .push _, _, _, _ => rfl
  | .map _ _, .pop, _, _, _ => rfl
  | .struct _ _ fs, act, c, c', h => performFields_alike fs act c c' h
  | .enum ds cached fs vs, .update tag value, c, c', h => by
    simp only [Ty.csPerform]
    split
    · exact ExRel.read ((Ty.struct false false fs).csDeserialize ρ value) fun a => alikeFields_refl fs _
    · cases vs.csVariant ρ tag value with
      | error e => rfl
      | ok o =>
        cases o with
        | none => exact h
        | some x => exact alikeVariant_refl vs x
  | .enum _ _ _ _, .push _, _, _, _ => rfl
  | .enum _ _ _ _, .pop, _, _, _ => rfl
  | .enum _ _ _ _, .remove _, _, _, _ => rfl
  | .uint _, act, c, c', h => by cases act <;> first | rfl | exact h
  | .sint _, act, c, c', h => by cases act <;> first | rfl | exact h
  | .bool, act, c, c', h => by cases act <;> first | rfl | exact h
  | .string, act, c, c', h => by cases act <;> first | rfl | exact h
  | .bytes, act, c, c', h => by cases act <;> first | rfl | exact h
  | .vec _, act, c, c', h => by cases act <;> first | rfl | exact h
  | .array _ _, act, c, c', h => by cases act <;> first | rfl | exact h
  | .tuple _, act, c, c', h => by cases act <;> rfl
  | .option _, act, c, c', h => by cases act <;> first | rfl | exact h
  | .hashMap _ _, act, c, c', h => by cases act <;> rfl

mutual
theorem below_alike : (t : Ty) → ∀ act k p (c c' : t.Cs), Alike t c c' → ExRel (Alike t) (t.csBelow ρ act k p c) (t.csBelow ρ act k p c')
  | .box t, act, k, p, c, c', h => by
    rw [Ty.csBelow, Ty.csBelow]
    exact below_alike t act k p c c' h
  | .list t, act, k, p, c, c', h => by
    simp only [Ty.csBelow]
    split
    · have hk := forall₂_get h k.toNat
      revert hk
      cases hx : c[k.toNat]? <;> cases hy : c'[k.toNat]? <;> intro hk
      · exact h
      · cases hk
      · cases hk
      · cases hk with
        | some hk => exact (ExRel.descend hk (perform_alike t act) (below_alike t act) p).map fun a b hab => alike_set h hab _
    · exact h
  | .map _ t, act, k, p, c, c', h => by
    simp only [Ty.csBelow]
    split
    · have hk := h k
      revert hk
      cases hx : c.lookup k <;> cases hy : c'.lookup k <;> intro hk
      · exact h
      · cases hk
      · cases hk
      · cases hk with
        | some hk =>
          refine (ExRel.descend hk (perform_alike t act) (below_alike t act) p).map fun a b hab j => ?_
          show Option.Rel _ ((dictPut k a c).lookup j) ((dictPut k b c').lookup j)
          rw [lookup_dictPut, lookup_dictPut, hx, hy]
          split
          · exact .some hab
          · exact h j
    · exact h
  | .struct _ _ fs, act, k, p, c, c', h => by
    rw [Ty.csBelow, Ty.csBelow]
    exact belowFields_alike fs act k p c c' h
  | .enum _ _ fs vs, act, k, p, .inl c, .inl c', h => by
    simp only [Ty.csBelow]
    split
    · exact (ExRel.descend (E := AlikeFields fs) h (performFields_alike fs act) (belowFields_alike fs act) p).map fun a b hab => hab
    · exact h
  | .enum _ _ fs vs, act, k, p, .inr c, .inr c', h => by
    simp only [Ty.csBelow]
    exact (belowVariants_alike vs act k p c c' h).map fun a b hab => hab
  | .enum _ _ fs vs, act, k, p, .inl c, .inr c', h => h.elim
  | .enum _ _ fs vs, act, k, p, .inr c, .inl c', h => h.elim
  | .uint _, act, k, p, c, c', h => h
  | .sint _, act, k, p, c, c', h => h
  | .bool, act, k, p, c, c', h => h
  | .string, act, k, p, c, c', h => h
  | .bytes, act, k, p, c, c', h => h
  | .vec _, act, k, p, c, c', h => h
  | .array _ _, act, k, p, c, c', h => h
  | .tuple _, act, k, p, c, c', h => h
  | .option _, act, k, p, c, c', h => h
  | .hashMap _ _, act, k, p, c, c', h => h

theorem belowFields_alike : (fs : Fields) → ∀ act k p (c c' : fs.Cs), AlikeFields fs c c' →
    ExRel (AlikeFields fs) (fs.csBelow ρ act k p c) (fs.csBelow ρ act k p c')
  | .nil, act, k, p, c, c', h => h
  | .cons tag _ t fs, act, k, p, c, c', h => by
    simp only [Fields.csBelow]
    split
    · split
      · exact (ExRel.descend h.1 (perform_alike t act) (below_alike t act) p).map fun a b hab => ⟨hab, h.2⟩
      · exact h
    · exact (belowFields_alike fs act k p c.2 c'.2 h.2).map fun a b hab => ⟨h.1, hab⟩

theorem belowVariants_alike : (vs : Variants) → ∀ act k p (c c' : vs.Cs), AlikeVariant vs c c' →
    ExRel (AlikeVariant vs) (vs.csBelow ρ act k p c) (vs.csBelow ρ act k p c')
  | .nil, act, k, p, c, c', h => h
  | .cons tag _ fs vs, act, k, p, .inl c, .inl c', h => by
    simp only [Variants.csBelow]
    split
    · exact (ExRel.descend (E := AlikeFields fs) h (performFields_alike fs act) (belowFields_alike fs act) p).map fun a b hab => hab
    · exact h
  | .cons tag _ fs vs, act, k, p, .inr c, .inr c', h => by
    simp only [Variants.csBelow]
    exact (belowVariants_alike vs act k p c c' h).map fun a b hab => hab
  | .cons tag _ fs vs, act, k, p, .inl c, .inr c', h => h.elim
  | .cons tag _ fs vs, act, k, p, .inr c, .inl c', h => h.elim
end

theorem entry_alike (t : Ty) (e : Entry) (c c' : t.Cs) (h : Alike t c c') :
    ExRel (Alike t) (t.csReplayEntry ρ c e) (t.csReplayEntry ρ c' e) := by
  have key : ∀ act path, ExRel (Alike t) (t.csAt ρ act path c) (t.csAt ρ act path c') :=
    fun act path => ExRel.descend h (perform_alike t act) (below_alike t act) path
  cases e with
  | update path value =>
    simp only [Ty.csReplayEntry]
    cases path.getLast? with
    | none => exact ExRel.read (t.csDeserialize ρ value) fun a => alike_refl t _
    | some tag => exact key _ _
  | listPush path item => exact key _ _
  | listPop path => exact key _ _
  | mapRemove path k => exact key _ _

/-- Entries, one after the other. -/
def csApplyAll (ρ : Bytes → Str) (t : Ty) : t.Cs → List Entry → Except Exn t.Cs
  | c, [] => .ok c
  | c, e :: es => do
    let c ← t.csReplayEntry ρ c e
    csApplyAll ρ t c es

theorem applyAll_alike (t : Ty) : ∀ (es : List Entry) (c c' : t.Cs), Alike t c c' →
    ExRel (Alike t) (csApplyAll ρ t c es) (csApplyAll ρ t c' es)
  | [], _, _, h => h
  | e :: es, c, c', h => by
    have he := entry_alike (ρ := ρ) t e c c' h
    simp only [csApplyAll]
    cases h1 : t.csReplayEntry ρ c e <;> cases h2 : t.csReplayEntry ρ c' e <;> rw [h1, h2] at he
    · exact he
    · exact he.elim
    · exact he.elim
    · exact applyAll_alike t es _ _ he

theorem csApplyAll_append (t : Ty) (es es' : List Entry) : ∀ c : t.Cs, csApplyAll ρ t c (es ++ es') = (do
    let c ← csApplyAll ρ t c es
    csApplyAll ρ t c es') := by
  induction es with
  | nil => intro c; rfl
  | cons e es ih =>
    intro c
    simp only [List.cons_append, csApplyAll]
    cases t.csReplayEntry ρ c e with
    | error x => rfl
    | ok c' => exact ih c'

mutual
theorem alike_trans : (t : Ty) → ∀ (a b c : t.Cs), Alike t a b → Alike t b c → Alike t a c
  | .box t, a, b, c, h, h' => alike_trans t a b c h h'
  | .list t, a, b, c, h, h' => by
    change List.Forall₂ _ a b at h
    change List.Forall₂ _ b c at h'
    show List.Forall₂ _ a c
    induction h generalizing c with
    | nil => cases h'; exact .nil
    | cons h1 h2 ih =>
      cases h' with
      | cons h3 h4 => exact .cons (alike_trans t _ _ _ h1 h3) (ih _ h4)
  | .map _ t, a, b, c, h, h' => fun k => by
    have h1 := h k
    have h2 := h' k
    revert h1 h2
    cases a.lookup k <;> cases b.lookup k <;> cases c.lookup k <;> intro h1 h2 <;> cases h1 <;> cases h2
    · exact .none
    · rename_i h1 h2
      exact .some (alike_trans t _ _ _ h1 h2)
  | .struct _ _ fs, a, b, c, h, h' => alikeFields_trans fs a b c h h'
  | .enum _ _ fs vs, .inl a, .inl b, .inl c, h, h' => alikeFields_trans fs a b c h h'
  | .enum _ _ fs vs, .inr a, .inr b, .inr c, h, h' => alikeVariant_trans vs a b c h h'
  | .enum _ _ fs vs, .inl a, .inr b, _, h, h' => h.elim
  | .enum _ _ fs vs, .inr a, .inl b, _, h, h' => h.elim
  | .enum _ _ fs vs, _, .inl b, .inr _, h, h' => h'.elim
  | .enum _ _ fs vs, _, .inr b, .inl _, h, h' => h'.elim
  | .uint _, _, _, _, h, h' => Eq.trans h h'
  | .sint _, _, _, _, h, h' => Eq.trans h h'
  | .bool, _, _, _, h, h' => Eq.trans h h'
  | .string, _, _, _, h, h' => Eq.trans h h'
  | .bytes, _, _, _, h, h' => Eq.trans h h'
  | .vec _, _, _, _, h, h' => Eq.trans h h'
  | .array _ _, _, _, _, h, h' => Eq.trans h h'
  | .tuple _, _, _, _, h, h' => Eq.trans h h'
  | .option _, _, _, _, h, h' => Eq.trans h h'
  | .hashMap _ _, _, _, _, h, h' => Eq.trans h h'

theorem alikeFields_trans : (fs : Fields) → ∀ (a b c : fs.Cs), AlikeFields fs a b → AlikeFields fs b c → AlikeFields fs a c
  | .nil, _, _, _, _, _ => trivial
  | .cons _ _ t fs, a, b, c, h, h' => ⟨alike_trans t _ _ _ h.1 h'.1, alikeFields_trans fs _ _ _ h.2 h'.2⟩

theorem alikeVariant_trans : (vs : Variants) → ∀ (a b c : vs.Cs), AlikeVariant vs a b → AlikeVariant vs b c → AlikeVariant vs a c
  | .nil, _, _, _, _, _ => trivial
  | .cons _ _ fs vs, .inl a, .inl b, .inl c, h, h' => alikeFields_trans fs a b c h h'
  | .cons _ _ fs vs, .inr a, .inr b, .inr c, h, h' => alikeVariant_trans vs a b c h h'
  | .cons _ _ fs vs, .inl a, .inr b, _, h, h' => h.elim
  | .cons _ _ fs vs, .inr a, .inl b, _, h, h' => h.elim
  | .cons _ _ fs vs, _, .inl b, .inr _, h, h' => h'.elim
  | .cons _ _ fs vs, _, .inr b, .inl _, h, h' => h'.elim
end

/-! ### The same data shown -/

theorem rel_shows {α β : Type} {R : α → β → Prop} {E : β → β → Prop} (h : ∀ a b c, R a b → E c b → R a c) {o : Option α} {p q : Option β}
    (hr : Option.Rel R o p) (he : Option.Rel E q p) : Option.Rel R o q := by
  cases hr with
  | none => cases he; exact .none
  | some hr => cases he with
    | some he => exact .some (h _ _ _ hr he)

mutual
theorem shows_alike : (t : Ty) → ∀ (v : t.El) (c c' : t.Cs), Shows t v c → Alike t c' c → Shows t v c'
  | .box t, v, c, c', h, h' => shows_alike t v c c' h h'
  | .list t, v, c, c', h, h' => by
    change List.Forall₂ _ c' c at h'
    change List.Forall₂ _ v.items c at h
    show List.Forall₂ _ v.items c'
    generalize v.items = l at h ⊢
    induction h' generalizing l with
    | nil => exact h
    | cons h1 h2 ih =>
      cases h with
      | cons h3 h4 => exact .cons (shows_alike t _ _ _ h3 h1) (ih _ h4)
  | .map _ t, v, c, c', h, h' => fun k => rel_shows (shows_alike t) (h k) (h' k)
  | .struct _ _ fs, v, c, c', h, h' => showsFields_alike fs v.fields c c' h h'
  | .enum _ _ fs vs, ⟨_, .inl v⟩, .inl c, .inl c', h, h' => showsFields_alike fs v c c' h h'
  | .enum _ _ fs vs, ⟨_, .inr v⟩, .inr c, .inr c', h, h' => showsVariant_alike vs v c c' h h'
  | .enum _ _ fs vs, ⟨_, .inl v⟩, .inr c, _, h, h' => h.elim
  | .enum _ _ fs vs, ⟨_, .inr v⟩, .inl c, _, h, h' => h.elim
  | .enum _ _ fs vs, _, .inl c, .inr c', h, h' => h'.elim
  | .enum _ _ fs vs, _, .inr c, .inl c', h, h' => h'.elim
  | .uint _, _, c, _, h, h' => by cases (show _ = c from h'); exact h
  | .sint _, _, c, _, h, h' => by cases (show _ = c from h'); exact h
  | .bool, _, c, _, h, h' => by cases (show _ = c from h'); exact h
  | .string, _, c, _, h, h' => by cases (show _ = c from h'); exact h
  | .bytes, _, c, _, h, h' => by cases (show _ = c from h'); exact h
  | .vec _, _, c, _, h, h' => by cases (show _ = c from h'); exact h
  | .array _ _, _, c, _, h, h' => by cases (show _ = c from h'); exact h
  | .tuple _, _, c, _, h, h' => h.elim
  | .option _, _, c, _, h, h' => by cases (show _ = c from h'); exact h
  | .hashMap _ _, _, c, _, h, h' => h.elim

theorem showsFields_alike : (fs : Fields) → ∀ (v : fs.El) (c c' : fs.Cs), ShowsFields fs v c → AlikeFields fs c' c → ShowsFields fs v c'
  | .nil, _, _, _, _, _ => trivial
  | .cons _ _ t fs, v, c, c', h, h' => ⟨shows_alike t _ _ _ h.1 h'.1, showsFields_alike fs _ _ _ h.2 h'.2⟩

theorem showsVariant_alike : (vs : Variants) → ∀ (v : vs.El) (c c' : vs.Cs), ShowsVariant vs v c → AlikeVariant vs c' c → ShowsVariant vs v c'
  | .nil, v, _, _, _, _ => nomatch v
  | .cons _ _ fs vs, .inl v, .inl c, .inl c', h, h' => showsFields_alike fs v c c' h h'
  | .cons _ _ fs vs, .inr v, .inr c, .inr c', h, h' => showsVariant_alike vs v c c' h h'
  | .cons _ _ fs vs, .inl v, .inr c, _, h, h' => h.elim
  | .cons _ _ fs vs, .inr v, .inl c, _, h, h' => h.elim
  | .cons _ _ fs vs, _, .inl c, .inr c', h, h' => h'.elim
  | .cons _ _ fs vs, _, .inr c, .inl c', h, h' => h'.elim
end

end Steit
