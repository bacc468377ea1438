import Verif.Lemmas.SyncBase

/-! # What an entry of the log says, without any handler

`Means t v e v'`: the entry `e` tells that the object went from `v` to `v'`. Both the Rust replica (`Lemmas/Follow.lean`) and the
C# client (`Lemmas/CSharpFollow.lean`) are shown to do what entries say, and API calls to log entries which say what they did
(`Lemmas/Tell.lean`). -/

namespace Steit
open Spec

/-- The entry replaces the whole object. -/
def Whole (t : Ty) (e : Entry) (v' : t.El) : Prop := e = .update [] (encode t v') ∧ Sendable t v'

mutual
/-- The entry changes something inside the object. -/
def Inside : (t : Ty) → t.El → Entry → t.El → Prop
  | .uint _, _, _, _ => False
  | .sint _, _, _, _ => False
  | .bool, _, _, _ => False
  | .string, _, _, _ => False
  | .bytes, _, _, _ => False
  | .vec _, _, _, _ => False
  | .array _ _, _, _, _ => False
  | .tuple _, _, _, _ => False
  | .option _, _, _, _ => False
  | .hashMap _ _, _, _, _ => False
  | .box t, v, e, v' => Inside t v e v'
  | .list t, v, e, v' =>
    (∃ x, Sendable t x ∧ e = .listPush [] (encode t x) ∧ v'.items = v.items ++ [x]) ∨
    (v.items ≠ [] ∧ e = .listPop [] ∧ v'.items = v.items.dropLast) ∨
    (∃ i x e' x', i < 2 ^ 32 ∧ v.items[i]? = some x ∧ (Whole t e' x' ∨ Inside t x e' x') ∧ e = under [fieldNo i] e' ∧
      v'.items = v.items.set i x')
  | .map kt t, v, e, v' =>
    (∃ k x, k.toNat ≤ kt.max ∧ k.toNat < 2 ^ 29 ∧ Sendable t x ∧ e = .update [k] (encode t x) ∧
      v'.entries = entriesInsert k x v.entries) ∨
    (∃ k, k ∈ v.entries.map (·.1) ∧ (v.entries.map (·.1)).Nodup ∧ e = .mapRemove [] k ∧ v'.entries = entriesRemove k v.entries) ∨
    (∃ k x e' x', entriesGet k v.entries = some x ∧ (Whole t e' x' ∨ Inside t x e' x') ∧ e = under [k] e' ∧
      v'.entries = entriesInsert k x' v.entries)
  | .struct false _ _, _, _, _ => False
  | .struct true _ fs, v, e, v' => InsideFields fs v.fields e v'.fields
  | .enum false _ _ _, _, _, _ => False
  | .enum true _ fs vs, v, e, v' =>
    match v.val, v'.val with
    | .inl x, .inl x' => ∃ e', e = under [0] e' ∧ InsideFields fs x e' x'
    | .inr x, .inr x' => InsideVariant vs x e x'
    | _, _ => False

/-- The entry changes one of the fields. -/
def InsideFields : (fs : Fields) → fs.El → Entry → fs.El → Prop
  | .nil, _, _, _ => False
  | .cons tag attrs t fs, v, e, v' =>
    (attrs.noState = false ∧ v'.2 = v.2 ∧ ∃ e', (Whole t e' v'.1 ∨ Inside t v.1 e' v'.1) ∧ e = under [tag] e') ∨
    (v'.1 = v.1 ∧ InsideFields fs v.2 e v'.2)

/-- The entry changes a field of the current variant. -/
def InsideVariant : (vs : Variants) → vs.El → Entry → vs.El → Prop
  | .nil, _, _, _ => False
  | .cons tag _ fs vs, v, e, v' =>
    match v, v' with
    | .inl x, .inl x' => ∃ e', e = under [tag] e' ∧ InsideFields fs x e' x'
    | .inr x, .inr x' => InsideVariant vs x e x'
    | _, _ => False
end

/-- The entry says that the object went from `v` to `v'`. -/
def Means (t : Ty) (v : t.El) (e : Entry) (v' : t.El) : Prop := Whole t e v' ∨ Inside t v e v'

theorem inside_enum {cached : Bool} {fs : Fields} {vs : Variants} {a b : (Ty.enum true cached fs vs).El} {e : Entry} :
    Inside (.enum true cached fs vs) a e b ↔ InsideVariant (allVariants cached fs vs) a.val e b.val := by
  rcases a with ⟨_, x | x⟩ <;> rcases b with ⟨_, y | y⟩ <;> exact Iff.rfl

/-- Entries, one after the other. -/
def Steps {α : Type} (M : α → Entry → α → Prop) : α → List Entry → α → Prop
  | v, [], v' => v' = v
  | v, e :: es, v' => ∃ u, M v e u ∧ Steps M u es v'

section
variable {α β : Type} {M : α → Entry → α → Prop} {N : β → Entry → β → Prop}

theorem Steps.one {v v' : α} {e : Entry} (h : M v e v') : Steps M v [e] v' := ⟨v', h, rfl⟩

theorem Steps.trans {es es' : List Entry} : ∀ {v u v' : α}, Steps M v es u → Steps M u es' v' → Steps M v (es ++ es') v' := by
  induction es with
  | nil => intro v u v' h1 h2; cases h1; exact h2
  | cons e es ih =>
    intro v u v' h1 h2
    obtain ⟨x, h3, h4⟩ := h1
    exact ⟨x, h3, ih h4 h2⟩

theorem Steps.lift (f : α → β) (g : Entry → Entry) (h : ∀ x e x', M x e x' → N (f x) (g e) (f x')) {es : List Entry} :
    ∀ {v v' : α}, Steps M v es v' → Steps N (f v) (es.map g) (f v') := by
  induction es with
  | nil => intro v v' h1; cases h1; rfl
  | cons e es ih =>
    intro v v' h1
    obtain ⟨x, h3, h4⟩ := h1
    exact ⟨f x, h _ _ _ h3, ih h4⟩

theorem Steps.lift_id (f : α → β) (h : ∀ x e x', M x e x' → N (f x) e (f x')) {es : List Entry} {v v' : α}
    (hs : Steps M v es v') : Steps N (f v) es (f v') := by
  have := hs.lift f id h
  rwa [List.map_id] at this

end

theorem steps_item {t : Ty} {v : (Ty.list t).El} {i : Nat} {x x' : t.El} {es : List Entry} (hi : i < 2 ^ 32)
    (hx : v.items[i]? = some x) (h : Steps (Means t) x es x') :
    Steps (Means (.list t)) v (es.map (under [fieldNo i])) { v with items := v.items.set i x' } := by
  have hlt : i < v.items.length := (List.getElem?_eq_some_iff.1 hx).1
  have key := h.lift (N := Means (.list t)) (fun z => ({ v with items := v.items.set i z } : ListV t.El)) (under [fieldNo i])
    (fun y e y' hy => .inr (.inr (.inr ⟨i, y, e, y', hi, List.getElem?_set_self hlt, hy, rfl, by simp only [List.set_set]⟩)))
  rwa [list_set_same hx] at key

theorem steps_value {t : Ty} {kt : KeyTy} {v : (Ty.map kt t).El} {k : U32} {x x' : t.El} {es : List Entry}
    (hx : entriesGet k v.entries = some x) (h : Steps (Means t) x es x') :
    Steps (Means (.map kt t)) v (es.map (under [k])) { v with entries := entriesInsert k x' v.entries } := by
  have key := h.lift (N := Means (.map kt t)) (fun z => ({ v with entries := entriesInsert k z v.entries } : MapV t.El))
    (under [k])
    (fun y e y' hy => .inr (.inr (.inr ⟨k, y, e, y', entriesGet_insert k y v.entries, hy, rfl, by
      simp only [entriesInsert_insert]⟩)))
  rwa [entriesInsert_same hx] at key

theorem steps_field {tag : U32} {attrs : FieldAttrs} {t : Ty} {fs : Fields} {v : (Fields.cons tag attrs t fs).El} {x' : t.El}
    {es : List Entry} (hn : attrs.noState = false) (h : Steps (Means t) v.1 es x') :
    Steps (InsideFields (.cons tag attrs t fs)) v (es.map (under [tag])) (x', v.2) :=
  h.lift (N := InsideFields (.cons tag attrs t fs)) (fun z => (z, v.2)) (under [tag])
    (fun _ e _ hy => .inl ⟨hn, rfl, e, hy, rfl⟩)

theorem steps_fields_tail {tag : U32} {attrs : FieldAttrs} {t : Ty} {fs : Fields} {v : (Fields.cons tag attrs t fs).El}
    {x' : fs.El} {es : List Entry} (h : Steps (InsideFields fs) v.2 es x') :
    Steps (InsideFields (.cons tag attrs t fs)) v es (v.1, x') :=
  h.lift_id (N := InsideFields (.cons tag attrs t fs)) (fun z => (v.1, z)) (fun _ _ _ hy => .inr ⟨rfl, hy⟩)

theorem steps_struct {cached : Bool} {fs : Fields} {v : (Ty.struct true cached fs).El} {x' : fs.El} {es : List Entry}
    (h : Steps (InsideFields fs) v.fields es x') : Steps (Means (.struct true cached fs)) v es { v with fields := x' } :=
  h.lift_id (N := Means (.struct true cached fs)) (fun z => ({ v with fields := z } : StructV fs.El)) (fun _ _ _ hy => .inr hy)

theorem steps_enum {cached : Bool} {fs : Fields} {vs : Variants} {v : (Ty.enum true cached fs vs).El}
    {x' : (allVariants cached fs vs).El} {es : List Entry} (h : Steps (InsideVariant (allVariants cached fs vs)) v.val es x') :
    Steps (Means (.enum true cached fs vs)) v es { v with val := x' } :=
  h.lift_id (N := Means (.enum true cached fs vs)) (fun z => ({ v with val := z } : EnumV (fs.El ⊕ vs.El)))
    (fun _ _ _ hy => .inr (inside_enum.2 hy))

end Steit
