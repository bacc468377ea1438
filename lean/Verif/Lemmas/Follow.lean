import Verif.Lemmas.Tell

/-! # The Rust replica does what entries say -/

namespace Steit
open Spec

/-- Applying an entry to any object equal to the one before makes it equal to the one after. -/
def Follows (t : Ty) : Prop :=
  ∀ v e v', Means t v e v' → ∀ m r rt, At t rt r → strip t r = strip t v →
    ∃ r', Applies (t.dict.handle m) r [e] r' ∧ strip t r' = strip t v'

/-- Only what is inside matters: an entry for the whole object is always followed. -/
theorem follows_of {t : Ty} (ht : t.WF) (hst : t.isState = true)
    (h : ∀ v e v', Inside t v e v' → ∀ m r rt, At t rt r → strip t r = strip t v →
      ∃ r', Applies (t.dict.handle m) r [e] r' ∧ strip t r' = strip t v') : Follows t := by
  intro v e v' hm m r rt hr hs
  rcases hm with ⟨rfl, hx⟩ | hm
  · obtain ⟨r', rest, h1, h2⟩ := follow_update ht hst m hr hx none
    exact ⟨r', .one (rest := rest) h1, h2⟩
  · exact h v e v' hm m r rt hr hs

/-! ### Lists -/

section list
variable {t : Ty}

theorem list_same {a b : (Ty.list t).El} :
    strip (.list t) a = strip (.list t) b ↔ a.items.map (strip t) = b.items.map (strip t) := by
  constructor
  · intro h; exact congrArg ListV.items h
  · intro h; exact congrArg (ListV.mk Rt.dflt) h

theorem getElem?_same {α : Type} {f : α → α} {xs ys : List α} (h : xs.map f = ys.map f) {i : Nat} {y : α}
    (hy : ys[i]? = some y) : ∃ x, xs[i]? = some x ∧ f x = f y := by
  have h1 : (xs.map f)[i]? = (ys.map f)[i]? := by rw [h]
  rw [List.getElem?_map, List.getElem?_map, hy] at h1
  obtain ⟨x, hx, he⟩ := Option.map_eq_some_iff.1 h1
  exact ⟨x, hx, he⟩

theorem length_same {α : Type} {f : α → α} {xs ys : List α} (h : xs.map f = ys.map f) : xs.length = ys.length := by
  rw [← List.length_map (f := f), h, List.length_map]

theorem list_below {m : Mode} {r : (Ty.list t).El} {i : Nat} (hi : i < 2 ^ 32) {y y' : t.El} {es : List Entry}
    (hy : r.items[i]? = some y) (ha : Applies (t.dict.handle m) y es y') :
    Applies ((Ty.list t).dict.handle m) r (es.map (under [fieldNo i])) { r with items := r.items.set i y' } := by
  have hlt : i < r.items.length := (List.getElem?_eq_some_iff.1 hy).1
  have key := Applies.below (H := (Ty.list t).dict.handle m) (fieldNo i)
    (fun z => ({ r with items := r.items.set i z } : ListV t.El)) (fun _ => True) (fun _ _ _ _ _ _ => trivial)
    (fun x path kind key bs z rest _ hz => by
      refine ⟨rest, ?_⟩
      show listHandle t.dict m _ (fieldNo i :: path) kind key bs = _
      simp only [listHandle, fieldNo_toNat hi]
      rw [List.getElem?_set_self hlt]
      simp only [hz, Res.map, List.set_set]) (es := es) trivial ha
  rwa [list_set_same hy] at key

theorem follows_list (ht : (Ty.list t).WF) (ih : Follows t) : Follows (.list t) := by
  refine follows_of ht rfl ?_
  intro v e v' hm m r rt hr hs
  rw [list_same] at hs
  rcases hm with ⟨x, hx, rfl, hv⟩ | ⟨hne, rfl, hv⟩ | ⟨i, x, e', x', hi, hx, hm, rfl, hv⟩
  · obtain ⟨y, rest, h3, h4⟩ := follow_fresh ht.2 m (r.rt.nested (fieldNo r.items.length)) hx
    refine ⟨{ r with items := r.items ++ [y] }, .one (rest := rest) ?_, ?_⟩
    · show listHandle t.dict m r [] .listPush none (encode t x) = _
      simp only [listHandle, h3]
    · rw [list_same, hv]
      simp only [List.map_append, hs, List.map_cons, List.map_nil, h4]
  · have hne' : r.items ≠ [] := by
      intro h0
      rw [h0] at hs
      exact hne (List.map_eq_nil_iff.1 hs.symm)
    refine ⟨{ r with items := r.items.dropLast }, .one (rest := []) ?_, ?_⟩
    · show listHandle t.dict m r [] .listPop none [] = _
      simp only [listHandle, if_neg hne']
    · rw [list_same, hv]
      simp only [List.map_dropLast, hs]
  · obtain ⟨y, hy, hyx⟩ := getElem?_same hs hx
    obtain ⟨y', h5, h6⟩ := ih x e' x' hm m y _ (hr.2 i y hy) hyx
    refine ⟨_, list_below hi hy h5, ?_⟩
    rw [list_same, hv]
    simp only [List.map_set, hs, h6]

end list

/-! ### Maps -/

section map
variable {t : Ty} {kt : KeyTy}

theorem map_same {a b : (Ty.map kt t).El} : strip (.map kt t) a = strip (.map kt t) b ↔
    a.entries.map (fun e => (e.1, strip t e.2)) = b.entries.map (fun e => (e.1, strip t e.2)) := by
  constructor
  · intro h; exact congrArg MapV.entries h
  · intro h; exact congrArg (MapV.mk Rt.dflt) h

theorem entriesGet_same {f : t.El → t.El} {xs ys : List (U32 × t.El)}
    (h : xs.map (fun e => (e.1, f e.2)) = ys.map (fun e => (e.1, f e.2))) (k : U32) :
    (entriesGet k xs).map f = (entriesGet k ys).map f := by
  rw [← entriesGet_map, h, entriesGet_map]

theorem map_below {m : Mode} {r : (Ty.map kt t).El} {k : U32} {y y' : t.El} {es : List Entry}
    (hy : entriesGet k r.entries = some y) (ha : Applies (t.dict.handle m) y es y') :
    Applies ((Ty.map kt t).dict.handle m) r (es.map (under [k])) { r with entries := entriesInsert k y' r.entries } := by
  have key := Applies.below (H := (Ty.map kt t).dict.handle m) k
    (fun z => ({ r with entries := entriesInsert k z r.entries } : MapV t.El)) (fun _ => True) (fun _ _ _ _ _ _ => trivial)
    (fun x path kind key bs z rest _ hz => by
      refine ⟨rest, ?_⟩
      show mapHandle kt t.dict m _ (k :: path) kind key bs = _
      simp only [mapHandle, entriesGet_insert, hz, Res.map, entriesInsert_insert]) (es := es) trivial ha
  rwa [entriesInsert_same hy] at key

theorem follows_map (ht : (Ty.map kt t).WF) (ih : Follows t) : Follows (.map kt t) := by
  refine follows_of ht rfl ?_
  intro v e v' hm m r rt hr hs
  rw [map_same] at hs
  rcases hm with ⟨k, x, hk, hk', hx, rfl, hv⟩ | ⟨k, hk, _, rfl, hv⟩ | ⟨k, x, e', x', hx, hm, rfl, hv⟩
  · cases hy : entriesGet k r.entries with
    | some y =>
      obtain ⟨y', rest, h2, h3⟩ := follow_update ht.2 ht.1 m (hr.2.2 _ (entriesGet_mem hy)) hx none
      refine ⟨{ r with entries := entriesInsert k y' r.entries }, .one (rest := rest) ?_, ?_⟩
      · show mapHandle kt t.dict m r [k] .update none (encode t x) = _
        simp only [mapHandle, hy, h2, Res.map]
      · rw [map_same, hv]
        simp only [entriesInsert_map, hs, h3]
    | none =>
      obtain ⟨y', rest, h2, h3⟩ := follow_fresh ht.2 m (r.rt.nested k) hx
      refine ⟨{ r with entries := entriesInsert k y' r.entries }, .one (rest := rest) ?_, ?_⟩
      · show mapHandle kt t.dict m r [k] .update none (encode t x) = _
        simp [mapHandle, hy, h2]
      · rw [map_same, hv]
        simp only [entriesInsert_map, hs, h3]
  · obtain ⟨x, hx⟩ := entriesGet_some_of_mem hk
    have hg := entriesGet_same (f := strip t) hs k
    rw [hx] at hg
    obtain ⟨y, hy, _⟩ := Option.map_eq_some_iff.1 hg
    refine ⟨{ r with entries := entriesRemove k r.entries }, .one (rest := []) ?_, ?_⟩
    · show mapHandle kt t.dict m r [] .mapRemove (some k) [] = _
      simp only [mapHandle, hy]
    · rw [map_same, hv]
      simp only [entriesRemove_map, hs]
  · have hg := entriesGet_same (f := strip t) hs k
    rw [hx] at hg
    obtain ⟨y, hy, hyx⟩ := Option.map_eq_some_iff.1 hg
    obtain ⟨y', h5, h6⟩ := ih x e' x' hm m y _ (hr.2.2 _ (entriesGet_mem hy)) hyx
    refine ⟨_, map_below hy h5, ?_⟩
    rw [map_same, hv]
    simp only [entriesInsert_map, hs, h6]

end map

/-! ### Fields -/

/-- The entry is addressed to one of these fields. -/
def Headed (tags : List U32) (e : Entry) : Prop := ∃ tag ∈ tags, ∃ p, address e = tag :: p

theorem headed_under (k : U32) (e : Entry) : ∃ p, address (under [k] e) = k :: p := by
  cases e <;> exact ⟨_, rfl⟩

theorem headed_inside : (fs : Fields) → ∀ {v v' : fs.El} {e : Entry}, InsideFields fs v e v' → Headed fs.tags e
  | .nil, _, _, _, h => nomatch h
  | .cons tag _ _ fs, _, _, _, h => by
    rcases h with ⟨_, _, e', _, rfl⟩ | ⟨_, h⟩
    · obtain ⟨p, hp⟩ := headed_under tag e'
      exact ⟨tag, List.mem_cons_self, p, hp⟩
    · obtain ⟨tag', hm, p, hp⟩ := headed_inside fs h
      exact ⟨tag', List.mem_cons_of_mem _ hm, p, hp⟩

/-- As `Follows`, for the fields of a message. -/
def FollowsFields (fs : Fields) : Prop :=
  ∀ v e v', InsideFields fs v e v' → ∀ m r rt, AtFields fs true rt r → stripFields fs r = stripFields fs v →
    ∃ r', Applies (variantHandle (fs.dict true) m) r [e] r' ∧ stripFields fs r' = stripFields fs v'

section fields
variable {tag : U32} {attrs : FieldAttrs} {t : Ty} {fs : Fields}

theorem field_below {m : Mode} {r : (Fields.cons tag attrs t fs).El} {y' : t.El} {es : List Entry} (hn : attrs.noState = false)
    (ha : Applies (t.dict.handle m) r.1 es y') :
    Applies (variantHandle ((Fields.cons tag attrs t fs).dict true) m) r (es.map (under [tag])) (y', r.2) := by
  exact Applies.below (H := variantHandle ((Fields.cons tag attrs t fs).dict true) m) tag
    (fun z => (z, r.2)) (fun _ => True) (fun _ _ _ _ _ _ => trivial)
    (fun x path kind key bs z rest _ hz => by
      refine ⟨rest, ?_⟩
      simp only [variantHandle, Fields.dict, fieldsCons, if_true, hn, Bool.not_false, Bool.and_self, hz, Res.map])
    (es := es) trivial ha

theorem fields_tail {m : Mode} {r : (Fields.cons tag attrs t fs).El} {y' : fs.El} {es : List Entry} (hnew : tag ∉ fs.tags)
    (hes : ∀ e ∈ es, Headed fs.tags e) (ha : Applies (variantHandle (fs.dict true) m) r.2 es y') :
    Applies (variantHandle ((Fields.cons tag attrs t fs).dict true) m) r es (r.1, y') := by
  have key := Applies.lift (H := variantHandle ((Fields.cons tag attrs t fs).dict true) m)
    (fun z => (r.1, z)) id (fun _ => True) (Headed fs.tags) (fun _ _ _ _ _ _ => trivial)
    (fun x e z rest _ he hz => by
      refine ⟨rest, ?_⟩
      obtain ⟨tag', hm, p, hp⟩ := he
      have hne : tag' ≠ tag := fun h => hnew (h ▸ hm)
      have gen : ∀ kind key bs, variantHandle (fs.dict true) m x (tag' :: p) kind key bs = .ok z rest →
          variantHandle ((Fields.cons tag attrs t fs).dict true) m (r.1, x) (tag' :: p) kind key bs = .ok (r.1, z) rest := by
        intro kind key bs h
        simp only [variantHandle, Fields.dict, fieldsCons, if_neg hne] at h ⊢
        cases hf : (fs.dict true).handleField m tag' x p kind key bs with
        | none => rw [hf] at h; cases h
        | some res =>
          rw [hf] at h
          simp only at h
          simp only [Option.map_some, h, Res.map]
      cases e <;> cases hp <;> exact gen _ _ _ hz) hes trivial ha
  rw [List.map_id] at key
  exact key

theorem follows_fields_cons (hnew : tag ∉ fs.tags) (iht : attrs.noState = false → Follows t) (ihf : FollowsFields fs) :
    FollowsFields (.cons tag attrs t fs) := by
  intro v e v' hm m r rt hr hs
  rcases hm with ⟨hn, h2, e', hm, rfl⟩ | ⟨h1, hm⟩
  · have hr1 : At t (rt.nested tag) r.1 := by
      have := hr.1
      simpa [hn] using this
    obtain ⟨y', h5, h6⟩ := iht hn v.1 e' v'.1 hm m r.1 _ hr1 (congrArg Prod.fst hs)
    refine ⟨(y', r.2), field_below (es := [e']) hn h5, Prod.ext h6 ?_⟩
    rw [show stripFields (.cons tag attrs t fs) v' = (strip t v'.1, stripFields fs v'.2) from rfl, h2]
    exact (congrArg Prod.snd hs : stripFields fs r.2 = stripFields fs v.2)
  · obtain ⟨r', h6, h7⟩ := ihf v.2 e v'.2 hm m r.2 rt hr.2 (congrArg Prod.snd hs)
    refine ⟨(r.1, r'), fields_tail hnew ?_ h6, Prod.ext ?_ h7⟩
    · intro x hx
      rw [List.mem_singleton] at hx
      subst hx
      exact headed_inside fs hm
    · rw [show stripFields (.cons tag attrs t fs) v' = (strip t v'.1, stripFields fs v'.2) from rfl, h1]
      exact (congrArg Prod.fst hs : strip t r.1 = strip t v.1)

end fields

theorem follows_struct {cached : Bool} {fs : Fields} (ht : (Ty.struct true cached fs).WF) (ih : FollowsFields fs) :
    Follows (.struct true cached fs) := by
  refine follows_of ht rfl ?_
  intro v e v' hm m' r rt' hr hs
  obtain ⟨y', h6, h7⟩ := ih v.fields e v'.fields hm m' r.fields rt' hr.2 (congrArg StructV.fields hs)
  refine ⟨{ r with fields := y' }, ?_, congrArg (StructV.mk Rt.dflt) h7⟩
  have key := Applies.lift (H := (Ty.struct true cached fs).dict.handle m')
    (fun z => ({ r with fields := z } : StructV fs.El)) id (fun _ => True) (Headed fs.tags) (fun _ _ _ _ _ _ => trivial)
    (fun x e z rest _ he hz => by
      refine ⟨rest, ?_⟩
      obtain ⟨tag, hm, p, hp⟩ := he
      have gen : ∀ kind key bs, variantHandle (fs.dict true) m' x (tag :: p) kind key bs = .ok z rest →
          structHandle (fs.dict true) m' { r with fields := x } (tag :: p) kind key bs = .ok { r with fields := z } rest := by
        intro kind key bs h
        simp only [variantHandle, structHandle] at h ⊢
        cases hf : (fs.dict true).handleField m' tag x p kind key bs with
        | none => rw [hf] at h; cases h
        | some res =>
          rw [hf] at h
          simp only at h
          simp only [h, Res.map]
      cases e <;> cases hp <;> exact gen _ _ _ hz) (fun x hx => by
        rw [List.mem_singleton] at hx
        subst hx
        exact headed_inside fs hm) trivial h6
  rw [List.map_id] at key
  exact key

/-! ### Enums -/

theorem handleFields_tag : (vs : Variants) → ∀ m x path kind key bs y rest,
    (vs.dict true).handleFields m x path kind key bs = .ok y rest → (vs.dict true).tagOf y = (vs.dict true).tagOf x
  | .nil, _, x, _, _, _, _, _, _, _ => nomatch x
  | .cons _ _ _ _, m, .inl x, path, kind, key, bs, y, rest, h => by
    obtain ⟨z, _, rfl⟩ := Res.map_ok h
    rfl
  | .cons _ _ _ vs, m, .inr x, path, kind, key, bs, y, rest, h => by
    obtain ⟨z, hz, rfl⟩ := Res.map_ok h
    exact handleFields_tag vs m x path kind key bs z rest hz

theorem tagOf_strip : (vs : Variants) → ∀ x, (vs.dict true).tagOf (stripVariant vs x) = (vs.dict true).tagOf x
  | .nil, x => nomatch x
  | .cons _ _ _ _, .inl _ => rfl
  | .cons _ _ _ vs, .inr x => tagOf_strip vs x

theorem enum_same {cached : Bool} {fs : Fields} {vs : Variants} {a b : (Ty.enum true cached fs vs).El} :
    strip (.enum true cached fs vs) a = strip (.enum true cached fs vs) b ↔
      stripVariant (allVariants cached fs vs) a.val = stripVariant (allVariants cached fs vs) b.val := by
  rcases a with ⟨_, x | x⟩ <;> rcases b with ⟨_, y | y⟩ <;>
    exact ⟨fun h => congrArg EnumV.val h, fun h => congrArg (EnumV.mk Rt.dflt) h⟩

/-- As `Follows`, for the variants of an enum: the entry is addressed below the variant's tag. -/
def FollowsVariants (vs : Variants) : Prop :=
  ∀ v e v', InsideVariant vs v e v' → ∃ e', e = under [(vs.dict true).tagOf v] e' ∧
    ∀ m r rt, VarAt vs true rt r → stripVariant vs r = stripVariant vs v →
      ∃ r', Applies ((vs.dict true).handleFields m) r [e'] r' ∧ stripVariant vs r' = stripVariant vs v'

theorem follows_variants_cons {tag : U32} {cached : Bool} {fs : Fields} {vs : Variants} (ihf : FollowsFields fs)
    (ihv : FollowsVariants vs) : FollowsVariants (.cons tag cached fs vs) := by
  intro v e v' hm
  rcases v with v | v <;> rcases v' with v' | v'
  · obtain ⟨e', rfl, hm⟩ := hm
    refine ⟨e', rfl, ?_⟩
    intro m' r rt' hr hs
    rcases r with r | r
    · obtain ⟨r', h6, h7⟩ := ihf v e' v' hm m' r (rt'.nested tag) hr (Sum.inl.inj hs)
      refine ⟨.inl r', ?_, congrArg Sum.inl h7⟩
      have key := Applies.lift (H := ((Variants.cons tag cached fs vs).dict true).handleFields m')
        (fun z => (Sum.inl z : fs.El ⊕ vs.El)) id (fun _ => True) (fun _ => True) (fun _ _ _ _ _ _ => trivial)
        (fun x e z rest _ _ hz => by
          refine ⟨rest, ?_⟩
          have gen : ∀ path kind key bs, variantHandle (fs.dict true) m' x path kind key bs = .ok z rest →
              ((Variants.cons tag cached fs vs).dict true).handleFields m' (.inl x) path kind key bs = .ok (.inl z) rest := by
            intro path kind key bs h
            simp only [Variants.dict, variantsCons, h, Res.map]
          cases e <;> exact gen _ _ _ _ hz) (fun _ _ => trivial) trivial h6
      rw [List.map_id] at key
      exact key
    · cases hs
  · exact nomatch hm
  · exact nomatch hm
  · obtain ⟨e', he, h5⟩ := ihv v e v' hm
    refine ⟨e', he, ?_⟩
    intro m' r rt' hr hs
    rcases r with r | r
    · cases hs
    · obtain ⟨r', h6, h7⟩ := h5 m' r rt' hr (Sum.inr.inj hs)
      refine ⟨.inr r', ?_, congrArg Sum.inr h7⟩
      have key := Applies.lift (H := ((Variants.cons tag cached fs vs).dict true).handleFields m')
        (fun z => (Sum.inr z : fs.El ⊕ vs.El)) id (fun _ => True) (fun _ => True) (fun _ _ _ _ _ _ => trivial)
        (fun x e z rest _ _ hz => by
          refine ⟨rest, ?_⟩
          have gen : ∀ path kind key bs, (vs.dict true).handleFields m' x path kind key bs = .ok z rest →
              ((Variants.cons tag cached fs vs).dict true).handleFields m' (.inr x) path kind key bs = .ok (.inr z) rest := by
            intro path kind key bs h
            simp only [Variants.dict, variantsCons, h, Res.map]
          cases e <;> exact gen _ _ _ _ hz) (fun _ _ => trivial) trivial h6
      rw [List.map_id] at key
      exact key

theorem follows_enum {cached : Bool} {fs : Fields} {vs : Variants} (ht : (Ty.enum true cached fs vs).WF)
    (ih : FollowsVariants (allVariants cached fs vs)) : Follows (.enum true cached fs vs) := by
  refine follows_of ht rfl ?_
  intro u e v' hm m' r rt' hr hs
  rw [inside_enum] at hm
  rw [enum_same] at hs
  obtain ⟨e', rfl, h5⟩ := ih _ _ _ hm
  have htag : ((allVariants cached fs vs).dict true).tagOf r.val = ((allVariants cached fs vs).dict true).tagOf u.val := by
    rw [← tagOf_strip, hs, tagOf_strip]
  obtain ⟨y', h6, h7⟩ := h5 m' r.val rt' ((at_enum_iff cached fs vs rt' r).1 hr).2 hs
  refine ⟨{ r with val := y' }, ?_, enum_same.2 h7⟩
  exact Applies.below (H := (Ty.enum true cached fs vs).dict.handle m') _
    (fun z => ({ r with val := z } : EnumV (fs.El ⊕ vs.El)))
    (fun z => ((allVariants cached fs vs).dict true).tagOf z = ((allVariants cached fs vs).dict true).tagOf u.val)
    (fun x e y rest hx hy => by
      rw [← hx]
      cases e <;> exact handleFields_tag (allVariants cached fs vs) m' x _ _ _ _ y rest hy)
    (fun x path kind key bs z rest hx hz => by
      refine ⟨rest, ?_⟩
      have gen : ∀ d, enumHandle ((allVariants cached fs vs).dict true) d m' { r with val := x }
          (((allVariants cached fs vs).dict true).tagOf u.val :: path) kind key bs = .ok { r with val := z } rest := by
        intro d
        simp only [enumHandle, hx, if_true, hz, Res.map]
      exact gen (fun rt => .inl ((fs.dict true).init rt))) htag h6

mutual
theorem follows : (t : Ty) → t.WF → t.isState = true → Follows t
  | .uint _, ht, hs => follows_of ht hs (fun _ _ _ h => nomatch h)
  | .sint _, ht, hs => follows_of ht hs (fun _ _ _ h => nomatch h)
  | .bool, ht, hs => follows_of ht hs (fun _ _ _ h => nomatch h)
  | .string, _, hs => nomatch hs
  | .bytes, _, hs => nomatch hs
  | .vec _, _, hs => nomatch hs
  | .array _ _, _, hs => nomatch hs
  | .tuple _, _, hs => nomatch hs
  | .option _, _, hs => nomatch hs
  | .hashMap _ _, _, hs => nomatch hs
  | .struct false _ _, _, hs => nomatch hs
  | .enum false _ _ _, _, hs => nomatch hs
  | .box t, ht, hs => follows t ht hs
  | .list t, ht, _ => follows_list ht (follows t ht.2 ht.1)
  | .map _ t, ht, _ => follows_map ht (follows t ht.2 ht.1)
  | .struct true _ fs, ht, _ => follows_struct ht (follows_fields fs ht.2 ht.1)
  | .enum true _ fs vs, ht, _ =>
    follows_enum ht (follows_variants_cons (follows_fields fs ht.2.1 ht.1) (follows_variants vs ht.2.2.2.2))

theorem follows_fields : (fs : Fields) → fs.WF true → fs.tags.Nodup → FollowsFields fs
  | .nil, _, _ => fun _ _ _ h => nomatch h
  | .cons _ _ t fs, hf, hn =>
    follows_fields_cons (List.nodup_cons.1 hn).1 (fun hs => follows t hf.2.2.1 (hf.2.1 (by simp [hs])))
      (follows_fields fs hf.2.2.2 (List.nodup_cons.1 hn).2)

theorem follows_variants : (vs : Variants) → vs.WF true → FollowsVariants vs
  | .nil, _ => fun _ _ _ h => nomatch h
  | .cons _ _ fs vs, hv => follows_variants_cons (follows_fields fs hv.2.2.1 hv.2.1) (follows_variants vs hv.2.2.2)
end

/-- Entries, one after the other. -/
theorem follows_steps {t : Ty} (ht : t.WF) (hst : t.isState = true) (m : Mode) {es : List Entry} :
    ∀ {v v' r : t.El} {rt : Rt}, Steps (Means t) v es v' → At t rt r → strip t r = strip t v →
      ∃ r', Applies (t.dict.handle m) r es r' ∧ strip t r' = strip t v' := by
  induction es with
  | nil => intro v v' r rt h hr hs; cases h; exact ⟨r, rfl, hs⟩
  | cons e es ih =>
    intro v v' r rt h hr hs
    obtain ⟨u, h1, h2⟩ := h
    obtain ⟨r1, h3, h4⟩ := follows t ht hst v e u h1 m r rt hr hs
    obtain ⟨r', h5, h6⟩ := ih h2 (applies_at ht hst hr h3) h4
    exact ⟨r', h3.trans h5, h6⟩

end Steit
