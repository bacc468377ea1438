import Verif.Lemmas.Compact

/-! # An entry that was applied was addressed to an object, or to something in a field marked `no_state` -/

namespace Steit
open Spec

/-- The field `tag` is marked `no_state`. -/
inductive DeafField : Fields → U32 → Prop
  | head {tag : U32} {attrs : FieldAttrs} {t : Ty} {fs : Fields} : attrs.noState = true → DeafField (.cons tag attrs t fs) tag
  | tail {tag tag' : U32} {attrs : FieldAttrs} {t : Ty} {fs : Fields} : tag ≠ tag' → DeafField fs tag → DeafField (.cons tag' attrs t fs) tag

/-- The current variant is `vtag`, and its field `tag` is marked `no_state`. -/
inductive DeafVariant : (vs : Variants) → vs.El → U32 → U32 → Prop
  | here {vtag tag : U32} {cached : Bool} {fs : Fields} {vs : Variants} {v : fs.El} :
      DeafField fs tag → DeafVariant (.cons vtag cached fs vs) (.inl v) vtag tag
  | there {vtag vtag' tag : U32} {cached : Bool} {fs : Fields} {vs : Variants} {v : vs.El} :
      DeafVariant vs v vtag tag → DeafVariant (.cons vtag' cached fs vs) (.inr v) vtag tag

/-- The path leads into a field of this message marked `no_state`. -/
inductive DeafHere : (t : Ty) → t.El → List U32 → Prop
  | field {cached : Bool} {fs : Fields} {v : StructV fs.El} {tag : U32} {p : List U32} :
      DeafField fs tag → DeafHere (.struct true cached fs) v (tag :: p)
  | variant {cached : Bool} {fs : Fields} {vs : Variants} {v : EnumV (fs.El ⊕ vs.El)} {vtag tag : U32} {p : List U32} :
      DeafVariant (.cons 0#32 cached fs vs) v.val vtag tag → DeafHere (.enum true cached fs vs) v (vtag :: tag :: p)

/-- The path leads into a field marked `no_state`. -/
def Deaf (t : Ty) (v : t.El) (p : List U32) : Prop :=
  ∃ p0 q s u put, p = p0 ++ q ∧ Part t v p0 s u put ∧ DeafHere s u q

/-- There is an object at the path, or the path leads into a field marked `no_state`. -/
def Found (t : Ty) (v : t.El) (p : List U32) : Prop := (∃ s u put, Part t v p s u put) ∨ Deaf t v p

theorem Found.self {t : Ty} {v : t.El} : Found t v [] := .inl ⟨t, v, _, .self⟩

theorem Found.deaf {t : Ty} {v : t.El} {p : List U32} (h : DeafHere t v p) : Found t v p := .inr ⟨[], p, t, v, _, rfl, .self, h⟩

theorem Found.box {t : Ty} {v : t.El} {p : List U32} (h : Found t v p) : Found (.box t) v p := by
  rcases h with ⟨s, u, put, h⟩ | ⟨p0, q, s, u, put, rfl, h1, h2⟩
  · exact .inl ⟨s, u, put, .box h⟩
  · exact .inr ⟨p0, q, s, u, put, rfl, .box h1, h2⟩

theorem Found.child {t : Ty} {v : t.El} {p q : List U32} {s : Ty} {u : s.El} {put : s.El → t.El} (hc : Child t v p s u put)
    (h : Found s u q) : Found t v (p ++ q) := by
  rcases h with ⟨s', u', put', h⟩ | ⟨p0, q', s', u', put', rfl, h1, h2⟩
  · exact .inl ⟨s', u', _, .inside hc h⟩
  · exact .inr ⟨p ++ p0, q', s', u', _, by rw [List.append_assoc], .inside hc h1, h2⟩

theorem entriesInsert_found {α : Type} (k : U32) (x : α) : ∀ es : List (U32 × α),
    ∃ pre post, entriesInsert k x es = pre ++ (k, x) :: post ∧ ∀ e ∈ pre, e.1 ≠ k
  | [] => ⟨[], [], rfl, fun _ h => nomatch h⟩
  | (k', x') :: es => by
    by_cases hk : k' = k
    · subst hk
      exact ⟨[], es, by simp [entriesInsert], fun _ h => nomatch h⟩
    · obtain ⟨pre, post, h1, h2⟩ := entriesInsert_found k x es
      refine ⟨(k', x') :: pre, post, by simp [entriesInsert, hk, h1], ?_⟩
      intro e he
      rcases List.mem_cons.1 he with rfl | he
      · exact hk
      · exact h2 e he

mutual
/-- The entry was applied. -/
theorem found_ty (m : Mode) (kind : LogKind) (key : Option U32) (bs : Bytes) : (t : Ty) → ∀ {v v1 : t.El} {p : List U32} {r : Bytes},
    t.dict.handle m v p kind key bs = .ok v1 r → Found t v1 p
  | .uint w, v, v1, p, r, h => by
    by_cases hp : p = []
    · subst hp; exact .self
    · change (if p = [] then _ else _) = _ at h
      rw [if_neg hp] at h; cases h
  | .sint w, v, v1, p, r, h => by
    by_cases hp : p = []
    · subst hp; exact .self
    · change (if p = [] then _ else _) = _ at h
      rw [if_neg hp] at h; cases h
  | .bool, v, v1, p, r, h => by
    by_cases hp : p = []
    · subst hp; exact .self
    · change (if p = [] then _ else _) = _ at h
      rw [if_neg hp] at h; cases h
  | .string, _, _, _, _, h => nomatch h
  | .bytes, _, _, _, _, h => nomatch h
  | .vec _, _, _, _, _, h => nomatch h
  | .array _ _, _, _, _, _, h => nomatch h
  | .tuple _, _, _, _, _, h => nomatch h
  | .option _, _, _, _, _, h => nomatch h
  | .hashMap _ _, _, _, _, _, h => nomatch h
  | .box t, _, _, _, _, h => .box (found_ty m kind key bs t h)
  | .list t, v, v1, p, r, h => by
    change listHandle t.dict m v p kind key bs = _ at h
    cases p with
    | nil => exact .self
    | cons i p =>
      simp only [listHandle] at h
      cases hi : v.items[i.toNat]? with
      | none => rw [hi] at h; cases h
      | some x =>
        rw [hi] at h
        obtain ⟨y, h1, rfl⟩ := Res.map_ok h
        have h2 := found_ty m kind key bs t h1
        have hlt := (List.getElem?_eq_some_iff.1 hi).1
        have hc : Child (.list t) (⟨v.rt, v.items.set i.toNat y⟩ : ListV t.El) [BitVec.ofNat 32 i.toNat] t y _ :=
          .item (l := ⟨v.rt, v.items.set i.toNat y⟩) i.isLt (List.getElem?_set_self hlt)
        rw [BitVec.ofNat_toNat, BitVec.setWidth_eq] at hc
        exact .child hc h2
  | .map kt t, v, v1, p, r, h => by
    change mapHandle kt t.dict m v p kind key bs = _ at h
    cases p with
    | nil => exact .self
    | cons k p =>
      have hc : ∀ y : t.El, ∃ put, Child (.map kt t) (⟨v.rt, entriesInsert k y v.entries⟩ : MapV t.El) [k] t y put := by
        intro y
        obtain ⟨pre, post, h1, h2⟩ := entriesInsert_found k y v.entries
        exact ⟨_, .value (v := ⟨v.rt, entriesInsert k y v.entries⟩) h1 h2⟩
      simp only [mapHandle] at h
      cases hg : entriesGet k v.entries with
      | some x =>
        rw [hg] at h
        obtain ⟨y, h1, rfl⟩ := Res.map_ok h
        obtain ⟨put, hc⟩ := hc y
        exact .child hc (found_ty m kind key bs t h1)
      | none =>
        rw [hg] at h
        simp only at h
        by_cases hu : kind = .update ∧ p = []
        · rw [if_pos hu] at h
          obtain ⟨-, rfl⟩ := hu
          split at h
          · cases h
            obtain ⟨put, hc⟩ := hc ‹_›
            exact .child hc .self
          · cases h
        · rw [if_neg hu] at h; cases h
  | .struct false _ _, _, _, _, _, h => nomatch h
  | .struct true cached fs, v, v1, p, r, h => by
    change structHandle (fs.dict true) m v p kind key bs = _ at h
    cases p with
    | nil => exact .self
    | cons tag p =>
      simp only [structHandle] at h
      cases hf : (fs.dict true).handleField m tag v.fields p kind key bs with
      | none => rw [hf] at h; cases h
      | some x =>
        rw [hf] at h
        obtain ⟨y, rfl, rfl⟩ := Res.map_ok h
        rcases found_fields m kind key bs fs hf with h1 | ⟨s, u, put, h1, h2⟩
        · exact .deaf (.field h1)
        · exact .child (.field (v := ⟨v.rt, y⟩) h1) h2
  | .enum false _ _ _, _, _, _, _, h => nomatch h
  | .enum true cached fs vs, v, v1, p, r, h => by
    change enumHandle ((allVariants cached fs vs).dict true) (fun rt => .inl ((fs.dict true).init rt)) m v p kind key bs = _ at h
    cases p with
    | nil => exact .self
    | cons vtag p =>
      simp only [enumHandle] at h
      by_cases hv : vtag = ((allVariants cached fs vs).dict true).tagOf v.val
      · rw [if_pos hv] at h
        obtain ⟨y, h1, rfl⟩ := Res.map_ok h
        cases hval : v.val with
        | inl a =>
          rw [hval] at h1 hv
          obtain ⟨z, h2, rfl⟩ := Res.map_ok (show (variantHandle (fs.dict true) m a p kind key bs).map Sum.inl = _ from h1)
          obtain rfl : vtag = 0#32 := hv
          cases p with
          | nil => cases h2
          | cons tag p =>
            simp only [variantHandle] at h2
            cases hf : (fs.dict true).handleField m tag a p kind key bs with
            | none => rw [hf] at h2; cases h2
            | some x =>
              rw [hf] at h2
              obtain rfl : x = _ := h2
              rcases found_fields m kind key bs fs hf with h1 | ⟨s, u, put, h1, h2⟩
              · exact .deaf (.variant (v := ⟨v.rt, .inl z⟩) (.here h1))
              · exact .child (p := [0#32, tag]) (.variant (v := ⟨v.rt, .inl z⟩) (.here h1)) h2
        | inr a =>
          rw [hval] at h1 hv
          obtain ⟨z, h2, rfl⟩ := Res.map_ok (show ((vs.dict true).handleFields m a p kind key bs).map Sum.inr = _ from h1)
          obtain ⟨tag, p', rfl, h3⟩ := found_variants m kind key bs vs h2
          change vtag = (vs.dict true).tagOf a at hv
          rw [← hv] at h3
          rcases h3 with h3 | ⟨s, u, put, h3, h4⟩
          · exact .deaf (.variant (v := ⟨v.rt, .inr z⟩) (.there h3))
          · exact .child (p := [vtag, tag]) (.variant (v := ⟨v.rt, .inr z⟩) (.there h3)) h4
      · rw [if_neg hv] at h; cases h

theorem found_fields (m : Mode) (kind : LogKind) (key : Option U32) (bs : Bytes) : (fs : Fields) → ∀ {v v1 : fs.El} {tag : U32} {p : List U32}
    {r : Bytes}, (fs.dict true).handleField m tag v p kind key bs = some (.ok v1 r) →
    DeafField fs tag ∨ ∃ s u put, FieldPart fs v1 tag s u put ∧ Found s u p
  | .nil, _, _, _, _, _, h => nomatch h
  | .cons tag' attrs t fs, v, v1, tag, p, r, h => by
    by_cases htag : tag = tag'
    · subst htag
      have hstep : ((Fields.cons tag attrs t fs).dict true).handleField m tag v p kind key bs =
          some (if (true && !attrs.noState) = true then (t.dict.handle m v.1 p kind key bs).map (fun x => (x, v.2)) else .ok v bs) := by
        show (if tag = tag then _ else _) = _
        rw [if_pos rfl]
      rw [hstep] at h
      by_cases hst : (true && !attrs.noState) = true
      · rw [if_pos hst] at h
        obtain ⟨y, h1, rfl⟩ := Res.map_ok (Option.some.inj h)
        exact .inr ⟨t, y, _, .head (v := (y, v.2)) (by simpa using hst), found_ty m kind key bs t h1⟩
      · exact .inl (.head (by simpa using hst))
    · have hstep : ((Fields.cons tag' attrs t fs).dict true).handleField m tag v p kind key bs =
          ((fs.dict true).handleField m tag v.2 p kind key bs).map (fun r => r.map (fun z => (v.1, z))) := by
        show (if tag = tag' then _ else _) = _
        rw [if_neg htag]
      rw [hstep] at h
      cases hf : (fs.dict true).handleField m tag v.2 p kind key bs with
      | none => rw [hf] at h; cases h
      | some x =>
        rw [hf] at h
        obtain ⟨y, rfl, rfl⟩ := Res.map_ok (Option.some.inj h)
        rcases found_fields m kind key bs fs hf with h1 | ⟨s, u, put, h1, h2⟩
        · exact .inl (.tail htag h1)
        · exact .inr ⟨s, u, _, .tail (v := (v.1, y)) h1, h2⟩

theorem found_variants (m : Mode) (kind : LogKind) (key : Option U32) (bs : Bytes) : (vs : Variants) → ∀ {v v1 : vs.El} {p : List U32}
    {r : Bytes}, (vs.dict true).handleFields m v p kind key bs = .ok v1 r → ∃ tag p', p = tag :: p' ∧
      (DeafVariant vs v1 ((vs.dict true).tagOf v) tag ∨ ∃ s u put, VariantPart vs v1 ((vs.dict true).tagOf v) tag s u put ∧ Found s u p')
  | .nil, v, _, _, _, _ => nomatch v
  | .cons vtag cached fs vs, .inl a, v1, p, r, h => by
    obtain ⟨z, h2, rfl⟩ := Res.map_ok (show (variantHandle (fs.dict true) m a p kind key bs).map Sum.inl = _ from h)
    cases p with
    | nil => cases h2
    | cons tag p =>
      simp only [variantHandle] at h2
      cases hf : (fs.dict true).handleField m tag a p kind key bs with
      | none => rw [hf] at h2; cases h2
      | some x =>
        rw [hf] at h2
        obtain rfl : x = _ := h2
        refine ⟨tag, p, rfl, ?_⟩
        rcases found_fields m kind key bs fs hf with h1 | ⟨s, u, put, h1, h2⟩
        · exact .inl (.here h1)
        · exact .inr ⟨s, u, _, .here h1, h2⟩
  | .cons vtag cached fs vs, .inr a, v1, p, r, h => by
    obtain ⟨z, h2, rfl⟩ := Res.map_ok (show ((vs.dict true).handleFields m a p kind key bs).map Sum.inr = _ from h)
    obtain ⟨tag, p', rfl, h3⟩ := found_variants m kind key bs vs h2
    refine ⟨tag, p', rfl, ?_⟩
    rcases h3 with h3 | ⟨s, u, put, h3, h4⟩
    · exact .inl (.there h3)
    · exact .inr ⟨s, u, _, .there h3, h4⟩
end

theorem found_entry {t : Ty} {m : Mode} {v v1 : t.El} {e : Entry} {r : Bytes} (h : applyE (t.dict.handle m) v e = .ok v1 r) :
    Found t v1 (address e) := by
  cases e <;> exact found_ty m _ _ _ t h

/-! ### Fields marked `no_state` ignore what is addressed to them, and stay where they are -/

theorem deaf_field {fs : Fields} {tag : U32} (h : DeafField fs tag) (m : Mode) (v : fs.El) (q : List U32) (kind : LogKind) (key : Option U32)
    (bs : Bytes) : (fs.dict true).handleField m tag v q kind key bs = some (.ok v bs) := by
  induction h with
  | @head tag attrs t fs hs =>
    show (if tag = tag then some (if (true && !attrs.noState) = true then _ else _) else _) = _
    rw [if_pos rfl, if_neg (by simp [hs])]
  | @tail tag tag' attrs t fs hne _ ih =>
    show (if tag = tag' then _ else ((fs.dict true).handleField m tag v.2 q kind key bs).map (fun r => r.map (fun z => (v.1, z)))) = _
    rw [if_neg hne, ih]
    rfl

theorem deaf_variant {vs : Variants} {v : vs.El} {vtag tag : U32} (h : DeafVariant vs v vtag tag) (m : Mode) (q : List U32) (kind : LogKind)
    (key : Option U32) (bs : Bytes) : (vs.dict true).tagOf v = vtag ∧ (vs.dict true).handleFields m v (tag :: q) kind key bs = .ok v bs := by
  induction h with
  | @here vtag tag cached fs vs v hf =>
    refine ⟨rfl, ?_⟩
    show (variantHandle (fs.dict true) m v (tag :: q) kind key bs).map Sum.inl = _
    simp only [variantHandle, deaf_field hf]
    rfl
  | @there vtag vtag' tag cached fs vs v _ ih =>
    refine ⟨ih.1, ?_⟩
    show ((vs.dict true).handleFields m v (tag :: q) kind key bs).map Sum.inr = _
    rw [ih.2]
    rfl

theorem deaf_here {t : Ty} {v : t.El} {p : List U32} (h : DeafHere t v p) (m : Mode) (q : List U32) (kind : LogKind) (key : Option U32)
    (bs : Bytes) : t.dict.handle m v (p ++ q) kind key bs = .ok v bs := by
  cases h with
  | @field cached fs v tag p hf =>
    show structHandle (fs.dict true) m v (tag :: (p ++ q)) kind key bs = _
    simp only [structHandle, deaf_field hf]
    rfl
  | @variant cached fs vs v vtag tag p hv =>
    show enumHandle ((allVariants cached fs vs).dict true) (fun rt => .inl ((fs.dict true).init rt)) m v (vtag :: tag :: (p ++ q)) kind key bs = _
    obtain ⟨h1, h2⟩ := deaf_variant hv m (p ++ q) kind key bs
    simp only [enumHandle]
    rw [if_pos (show vtag = ((allVariants cached fs vs).dict true).tagOf v.val from h1.symm)]
    rw [show ((allVariants cached fs vs).dict true).handleFields m v.val (tag :: (p ++ q)) kind key bs = _ from h2]
    rfl

theorem deaf_within {t : Ty} (ht : t.WF) {v : t.El} {p : List U32} (h : Deaf t v p) (m : Mode) {e : Entry} (he : Within p e) :
    ∃ r, applyE (t.dict.handle m) v e = .ok v r := by
  obtain ⟨p0, q, s, u, put, rfl, h1, h2⟩ := h
  obtain ⟨e', rfl⟩ := within_under he
  have key : ∀ q' kind key bs, t.dict.handle m v (p0 ++ (q ++ q')) kind key bs = .ok v bs := by
    intro q' kind key bs
    rw [handle_part h1 ht, deaf_here h2]
    show Res.ok (put u) bs = _
    rw [part_self h1]
  have key' : ∀ q' kind key bs, t.dict.handle m v (p0 ++ q ++ q') kind key bs = .ok v bs := by
    intro q' kind k bs
    rw [List.append_assoc]
    exact key q' kind k bs
  cases e' with
  | update q' b => exact ⟨_, key' q' .update none b⟩
  | listPush q' b => exact ⟨_, key' q' .listPush none b⟩
  | listPop q' => exact ⟨_, key' q' .listPop none []⟩
  | mapRemove q' k => exact ⟨_, key' q' .mapRemove (some k) []⟩

theorem variants_keep {vs : Variants} {v v1 : vs.El} {vtag tag : U32} (h : DeafVariant vs v vtag tag) {m : Mode} {q : List U32} {kind : LogKind}
    {key : Option U32} {bs r : Bytes} (hh : (vs.dict true).handleFields m v q kind key bs = .ok v1 r) : DeafVariant vs v1 vtag tag := by
  induction h with
  | @here vtag tag cached fs vs v hf =>
    obtain ⟨z, -, rfl⟩ := Res.map_ok (show (variantHandle (fs.dict true) m v q kind key bs).map Sum.inl = _ from hh)
    exact .here hf
  | @there vtag vtag' tag cached fs vs v _ ih =>
    obtain ⟨z, h1, rfl⟩ := Res.map_ok (show ((vs.dict true).handleFields m v q kind key bs).map Sum.inr = _ from hh)
    exact .there (ih h1)

theorem deafHere_keep {t : Ty} {v v1 : t.El} {p : List U32} (h : DeafHere t v p) {m : Mode} {q : List U32} {kind : LogKind} {key : Option U32}
    {bs r : Bytes} (hq : q = [] → kind ≠ .update) (hh : t.dict.handle m v q kind key bs = .ok v1 r) : DeafHere t v1 p := by
  cases h with
  | field hf => exact .field hf
  | @variant cached fs vs v vtag tag p hv =>
    change enumHandle ((allVariants cached fs vs).dict true) (fun rt => .inl ((fs.dict true).init rt)) m v q kind key bs = _ at hh
    cases q with
    | nil =>
      simp only [enumHandle] at hh
      rw [if_neg (hq rfl)] at hh
      cases hh
    | cons tag' q =>
      simp only [enumHandle] at hh
      by_cases h1 : tag' = ((allVariants cached fs vs).dict true).tagOf v.val
      · rw [if_pos h1] at hh
        obtain ⟨y, h2, rfl⟩ := Res.map_ok hh
        exact .variant (v := ⟨v.rt, y⟩) (variants_keep hv h2)
      · rw [if_neg h1] at hh; cases hh

theorem deaf_aside {t : Ty} (ht : t.WF) {rt : Rt} {v v1 : t.El} (hat : At t rt v) {p : List U32} (h : Deaf t v p) {m : Mode} {e : Entry}
    (he : Aside p e) {r : Bytes} (hh : applyE (t.dict.handle m) v e = .ok v1 r) : Deaf t v1 p := by
  obtain ⟨p0, q, s, u, put, rfl, h1, h2⟩ := h
  obtain ⟨kind, key, b, h3, h4⟩ := aside_entry he
  unfold applyE at hh
  rw [h3] at hh
  simp only at hh
  by_cases hp : p0 <+: address e
  · obtain ⟨q', hq'⟩ := hp
    rw [← hq'] at hh h4
    rw [handle_part h1 ht] at hh
    obtain ⟨u1, h5, rfl⟩ := Res.map_ok hh
    refine ⟨p0, q, s, u1, put, rfl, part_put h1 u1, deafHere_keep h2 ?_ h5⟩
    rintro rfl rfl
    rcases aside_inside h4 with h6 | ⟨-, -, h6 | ⟨h6, -⟩⟩
    · exact h6.2 List.nil_prefix
    · cases h6
    · cases h6
  · rcases part_aside h1 ht hat m (address e) kind key (b.getD []) (aside_outside h4 hp) with ⟨put', rest, h5⟩ | h5
    · have h6 := h5 u
      rw [part_self h1] at h6
      simp only at h6
      rw [hh] at h6
      obtain ⟨h6, h7⟩ := h6
      cases h6
      exact ⟨p0, q, s, u, put', rfl, h7, h2⟩
    · obtain ⟨v', e', h6⟩ := h5 u
      rw [part_self h1] at h6
      simp only at h6
      rw [hh] at h6
      cases h6

theorem applies_deaf {t : Ty} (ht : t.WF) (hs : t.isState = true) {rt : Rt} (m : Mode) {p : List U32} : ∀ {es : List Entry},
    (∀ e ∈ es, Within p e ∨ Aside p e) → ∀ {v v' : t.El}, Deaf t v p → At t rt v → Applies (t.dict.handle m) v es v' →
    Applies (t.dict.handle m) v (without p es) v'
  | [], _, _, _, _, _, ha => ha
  | e :: es, he, v, v', h, hat, ha => by
    obtain ⟨v1, r, h1, h2⟩ := ha
    have hat1 : At t rt v1 := applies_at ht hs hat (es := [e]) ⟨v1, r, h1, rfl⟩
    have he' : ∀ e ∈ es, Within p e ∨ Aside p e := fun e h => he e (List.mem_cons_of_mem _ h)
    by_cases hw : Within p e
    · obtain ⟨r', h3⟩ := deaf_within ht h m hw
      rw [h1] at h3
      cases h3
      have : without p (e :: es) = without p es := List.filter_cons_of_neg (by simpa using hw)
      rw [this]
      exact applies_deaf ht hs m he' h hat h2
    · have hb : Aside p e := (he e (List.mem_cons_self ..)).resolve_left hw
      have : without p (e :: es) = e :: without p es := List.filter_cons_of_pos (by simpa using hw)
      rw [this]
      exact ⟨v1, r, h1, applies_deaf ht hs m he' (deaf_aside ht hat h hb h1) hat1 h2⟩

/-! ### Objects that were there before -/

/-- The path is the address of an enum followed by the tag of its variant. -/
def OnVariant (t : Ty) (v : t.El) (p : List U32) : Prop :=
  ∃ p0 vtag cached fs vs, ∃ (u : EnumV (fs.El ⊕ vs.El)) (put : (Ty.enum true cached fs vs).El → t.El), p = p0 ++ [vtag] ∧
    Part t v p0 (.enum true cached fs vs) u put ∧ ((allVariants cached fs vs).dict true).tagOf u.val = vtag

/-- There is an object at the path, or the path leads into a field marked `no_state`, or to a variant. -/
def Known (t : Ty) (v : t.El) (p : List U32) : Prop := Found t v p ∨ OnVariant t v p

theorem Known.self {t : Ty} {v : t.El} : Known t v [] := .inl .self

theorem Known.box {t : Ty} {v : t.El} {p : List U32} (h : Known t v p) : Known (.box t) v p := by
  rcases h with h | ⟨p0, vtag, cached, fs, vs, u, put, rfl, h1, h2⟩
  · exact .inl h.box
  · exact .inr ⟨p0, vtag, cached, fs, vs, u, put, rfl, .box h1, h2⟩

theorem Known.child {t : Ty} {v : t.El} {p q : List U32} {s : Ty} {u : s.El} {put : s.El → t.El} (hc : Child t v p s u put)
    (h : Known s u q) : Known t v (p ++ q) := by
  rcases h with h | ⟨p0, vtag, cached, fs, vs, u', put', rfl, h1, h2⟩
  · exact .inl (.child hc h)
  · exact .inr ⟨p ++ p0, vtag, cached, fs, vs, u', _, by rw [List.append_assoc], .inside hc h1, h2⟩

theorem entriesGet_found {α : Type} {k : U32} {x : α} : ∀ {es : List (U32 × α)}, entriesGet k es = some x →
    ∃ pre post, es = pre ++ (k, x) :: post ∧ ∀ e ∈ pre, e.1 ≠ k
  | (k', x') :: es, h => by
    simp only [entriesGet] at h
    by_cases hk : k' = k
    · subst hk
      rw [if_pos rfl] at h
      cases h
      exact ⟨[], es, rfl, fun _ h => nomatch h⟩
    · rw [if_neg hk] at h
      obtain ⟨pre, post, rfl, h2⟩ := entriesGet_found h
      refine ⟨(k', x') :: pre, post, rfl, ?_⟩
      intro e he
      rcases List.mem_cons.1 he with rfl | he
      · exact hk
      · exact h2 e he

mutual
/-- An entry inside `p`, other than an update of `p`, was applied: `p` was there. -/
theorem known_ty (m : Mode) (kind : LogKind) (key : Option U32) (bs : Bytes) (q : List U32) (hq : q = [] → kind ≠ .update) : (t : Ty) →
    ∀ {v v1 : t.El} {p : List U32} {r : Bytes}, t.dict.handle m v (p ++ q) kind key bs = .ok v1 r → Known t v p
  | .uint w, v, v1, p, r, h => by
    cases p with
    | nil => exact .self
    | cons a p => cases h
  | .sint w, v, v1, p, r, h => by
    cases p with
    | nil => exact .self
    | cons a p => cases h
  | .bool, v, v1, p, r, h => by
    cases p with
    | nil => exact .self
    | cons a p => cases h
  | .string, _, _, _, _, h => nomatch h
  | .bytes, _, _, _, _, h => nomatch h
  | .vec _, _, _, _, _, h => nomatch h
  | .array _ _, _, _, _, _, h => nomatch h
  | .tuple _, _, _, _, _, h => nomatch h
  | .option _, _, _, _, _, h => nomatch h
  | .hashMap _ _, _, _, _, _, h => nomatch h
  | .box t, _, _, _, _, h => .box (known_ty m kind key bs q hq t h)
  | .list t, v, v1, p, r, h => by
    change listHandle t.dict m v (p ++ q) kind key bs = _ at h
    cases p with
    | nil => exact .self
    | cons i p =>
      simp only [listHandle, List.cons_append] at h
      cases hi : v.items[i.toNat]? with
      | none => rw [hi] at h; cases h
      | some x =>
        rw [hi] at h
        obtain ⟨y, h1, -⟩ := Res.map_ok h
        have hc := Child.item (t := t) (l := v) i.isLt hi
        rw [BitVec.ofNat_toNat, BitVec.setWidth_eq] at hc
        exact .child hc (known_ty m kind key bs q hq t h1)
  | .map kt t, v, v1, p, r, h => by
    change mapHandle kt t.dict m v (p ++ q) kind key bs = _ at h
    cases p with
    | nil => exact .self
    | cons k p =>
      simp only [mapHandle, List.cons_append] at h
      cases hg : entriesGet k v.entries with
      | some x =>
        rw [hg] at h
        obtain ⟨y, h1, -⟩ := Res.map_ok h
        obtain ⟨pre, post, h2, h3⟩ := entriesGet_found hg
        exact .child (.value (kt := kt) (v := v) h2 h3) (known_ty m kind key bs q hq t h1)
      | none =>
        rw [hg] at h
        simp only at h
        rw [if_neg (fun hu => hq (List.append_eq_nil_iff.1 hu.2).2 hu.1)] at h
        cases h
  | .struct false _ _, _, _, _, _, h => nomatch h
  | .struct true cached fs, v, v1, p, r, h => by
    change structHandle (fs.dict true) m v (p ++ q) kind key bs = _ at h
    cases p with
    | nil => exact .self
    | cons tag p =>
      simp only [structHandle, List.cons_append] at h
      cases hf : (fs.dict true).handleField m tag v.fields (p ++ q) kind key bs with
      | none => rw [hf] at h; cases h
      | some x =>
        rw [hf] at h
        obtain ⟨y, rfl, -⟩ := Res.map_ok h
        rcases known_fields m kind key bs q hq fs hf with h1 | ⟨s, u, put, h1, h2⟩
        · exact .inl (.deaf (.field h1))
        · exact .child (.field h1) h2
  | .enum false _ _ _, _, _, _, _, h => nomatch h
  | .enum true cached fs vs, v, v1, p, r, h => by
    change enumHandle ((allVariants cached fs vs).dict true) (fun rt => .inl ((fs.dict true).init rt)) m v (p ++ q) kind key bs = _ at h
    cases p with
    | nil => exact .self
    | cons vtag p =>
      simp only [enumHandle, List.cons_append] at h
      by_cases hv : vtag = ((allVariants cached fs vs).dict true).tagOf v.val
      · rw [if_pos hv] at h
        obtain ⟨y, h1, -⟩ := Res.map_ok h
        cases p with
        | nil => exact .inr ⟨[], vtag, cached, fs, vs, v, _, rfl, .self, hv.symm⟩
        | cons tag p =>
          cases hval : v.val with
          | inl a =>
            rw [hval] at h1 hv
            obtain ⟨z, h2, -⟩ := Res.map_ok (show (variantHandle (fs.dict true) m a (tag :: (p ++ q)) kind key bs).map Sum.inl = _ from h1)
            obtain rfl : vtag = 0#32 := hv
            simp only [variantHandle] at h2
            cases hf : (fs.dict true).handleField m tag a (p ++ q) kind key bs with
            | none => rw [hf] at h2; cases h2
            | some x =>
              rw [hf] at h2
              obtain rfl : x = _ := h2
              rcases known_fields m kind key bs q hq fs hf with h1 | ⟨s, u, put, h1, h2⟩
              · exact .inl (.deaf (.variant (by rw [hval]; exact .here h1)))
              · exact .child (p := [0#32, tag]) (.variant (by rw [hval]; exact .here h1)) h2
          | inr a =>
            rw [hval] at h1 hv
            obtain ⟨z, h2, -⟩ := Res.map_ok (show ((vs.dict true).handleFields m a (tag :: (p ++ q)) kind key bs).map Sum.inr = _ from h1)
            have h3 := known_variants m kind key bs q hq vs h2
            change vtag = (vs.dict true).tagOf a at hv
            rw [← hv] at h3
            rcases h3 with h3 | ⟨s, u, put, h3, h4⟩
            · exact .inl (.deaf (.variant (by rw [hval]; exact .there h3)))
            · exact .child (p := [vtag, tag]) (.variant (by rw [hval]; exact .there h3)) h4
      · rw [if_neg hv] at h; cases h

theorem known_fields (m : Mode) (kind : LogKind) (key : Option U32) (bs : Bytes) (q : List U32) (hq : q = [] → kind ≠ .update) :
    (fs : Fields) → ∀ {v v1 : fs.El} {tag : U32} {p : List U32} {r : Bytes},
    (fs.dict true).handleField m tag v (p ++ q) kind key bs = some (.ok v1 r) →
    DeafField fs tag ∨ ∃ s u put, FieldPart fs v tag s u put ∧ Known s u p
  | .nil, _, _, _, _, _, h => nomatch h
  | .cons tag' attrs t fs, v, v1, tag, p, r, h => by
    by_cases htag : tag = tag'
    · subst htag
      have hstep : ((Fields.cons tag attrs t fs).dict true).handleField m tag v (p ++ q) kind key bs =
          some (if (true && !attrs.noState) = true then (t.dict.handle m v.1 (p ++ q) kind key bs).map (fun x => (x, v.2)) else .ok v bs) := by
        show (if tag = tag then _ else _) = _
        rw [if_pos rfl]
      rw [hstep] at h
      by_cases hst : (true && !attrs.noState) = true
      · rw [if_pos hst] at h
        obtain ⟨y, h1, -⟩ := Res.map_ok (Option.some.inj h)
        exact .inr ⟨t, v.1, _, .head (v := v) (by simpa using hst), known_ty m kind key bs q hq t h1⟩
      · exact .inl (.head (by simpa using hst))
    · have hstep : ((Fields.cons tag' attrs t fs).dict true).handleField m tag v (p ++ q) kind key bs =
          ((fs.dict true).handleField m tag v.2 (p ++ q) kind key bs).map (fun r => r.map (fun z => (v.1, z))) := by
        show (if tag = tag' then _ else _) = _
        rw [if_neg htag]
      rw [hstep] at h
      cases hf : (fs.dict true).handleField m tag v.2 (p ++ q) kind key bs with
      | none => rw [hf] at h; cases h
      | some x =>
        rw [hf] at h
        obtain ⟨y, rfl, -⟩ := Res.map_ok (Option.some.inj h)
        rcases known_fields m kind key bs q hq fs hf with h1 | ⟨s, u, put, h1, h2⟩
        · exact .inl (.tail htag h1)
        · exact .inr ⟨s, u, _, .tail (v := v) h1, h2⟩

theorem known_variants (m : Mode) (kind : LogKind) (key : Option U32) (bs : Bytes) (q : List U32) (hq : q = [] → kind ≠ .update) :
    (vs : Variants) → ∀ {v v1 : vs.El} {tag : U32} {p : List U32} {r : Bytes},
    (vs.dict true).handleFields m v (tag :: (p ++ q)) kind key bs = .ok v1 r →
      DeafVariant vs v ((vs.dict true).tagOf v) tag ∨ ∃ s u put, VariantPart vs v ((vs.dict true).tagOf v) tag s u put ∧ Known s u p
  | .nil, v, _, _, _, _, _ => nomatch v
  | .cons vtag cached fs vs, .inl a, v1, tag, p, r, h => by
    obtain ⟨z, h2, -⟩ := Res.map_ok (show (variantHandle (fs.dict true) m a (tag :: (p ++ q)) kind key bs).map Sum.inl = _ from h)
    simp only [variantHandle] at h2
    cases hf : (fs.dict true).handleField m tag a (p ++ q) kind key bs with
    | none => rw [hf] at h2; cases h2
    | some x =>
      rw [hf] at h2
      obtain rfl : x = _ := h2
      rcases known_fields m kind key bs q hq fs hf with h1 | ⟨s, u, put, h1, h2⟩
      · exact .inl (.here h1)
      · exact .inr ⟨s, u, _, .here h1, h2⟩
  | .cons vtag cached fs vs, .inr a, v1, tag, p, r, h => by
    obtain ⟨z, h2, -⟩ := Res.map_ok (show ((vs.dict true).handleFields m a (tag :: (p ++ q)) kind key bs).map Sum.inr = _ from h)
    rcases known_variants m kind key bs q hq vs h2 with h3 | ⟨s, u, put, h3, h4⟩
    · exact .inl (.there h3)
    · exact .inr ⟨s, u, _, .there h3, h4⟩
end

theorem known_entry {t : Ty} {m : Mode} {v v1 : t.El} {p : List U32} {e : Entry} {r : Bytes} (he : Within p e) (hn : ∀ b, e ≠ .update p b)
    (h : applyE (t.dict.handle m) v e = .ok v1 r) : Known t v p := by
  obtain ⟨e', rfl⟩ := within_under he
  cases e' with
  | update q b =>
    refine known_ty m .update none b q ?_ t h
    rintro rfl
    exact absurd (congrArg (fun p => Entry.update p b) (List.append_nil p)) (hn b)
  | listPush q b => exact known_ty m .listPush none b q (fun _ h => nomatch h) t h
  | listPop q => exact known_ty m .listPop none [] q (fun _ h => nomatch h) t h
  | mapRemove q k => exact known_ty m .mapRemove (some k) [] q (fun _ h => nomatch h) t h

/-! ### The address of a variant: the enum around it is the object -/

theorem handledFields_tag : (vs : Variants) → ∀ {v v1 : vs.El} {m : Mode} {q : List U32} {kind : LogKind} {key : Option U32} {bs r : Bytes},
    (vs.dict true).handleFields m v q kind key bs = .ok v1 r → (vs.dict true).tagOf v1 = (vs.dict true).tagOf v
  | .nil, v, _, _, _, _, _, _, _, _ => nomatch v
  | .cons vtag cached fs vs, .inl a, v1, m, q, kind, key, bs, r, h => by
    obtain ⟨z, -, rfl⟩ := Res.map_ok (show (variantHandle (fs.dict true) m a q kind key bs).map Sum.inl = _ from h)
    rfl
  | .cons vtag cached fs vs, .inr a, v1, m, q, kind, key, bs, r, h => by
    obtain ⟨z, h1, rfl⟩ := Res.map_ok (show ((vs.dict true).handleFields m a q kind key bs).map Sum.inr = _ from h)
    exact handledFields_tag vs h1

theorem handledFields_nil : (vs : Variants) → ∀ {v v1 : vs.El} {m : Mode} {kind : LogKind} {key : Option U32} {bs r : Bytes},
    (vs.dict true).handleFields m v [] kind key bs ≠ .ok v1 r
  | .nil, v, _, _, _, _, _, _ => nomatch v
  | .cons vtag cached fs vs, .inl a, v1, m, kind, key, bs, r => fun h => nomatch h
  | .cons vtag cached fs vs, .inr a, v1, m, kind, key, bs, r => fun h => by
    obtain ⟨z, h1, rfl⟩ := Res.map_ok (show ((vs.dict true).handleFields m a [] kind key bs).map Sum.inr = _ from h)
    exact handledFields_nil vs h1

theorem enum_applied {cached : Bool} {fs : Fields} {vs : Variants} {u u1 : EnumV (fs.El ⊕ vs.El)} {m : Mode} {q : List U32} {kind : LogKind}
    {key : Option U32} {bs r : Bytes} (h : (Ty.enum true cached fs vs).dict.handle m u q kind key bs = .ok u1 r) :
    (q = [] ∧ kind = .update) ∨ ∃ q', q' ≠ [] ∧ q = ((allVariants cached fs vs).dict true).tagOf u.val :: q' ∧
      ((allVariants cached fs vs).dict true).tagOf u1.val = ((allVariants cached fs vs).dict true).tagOf u.val := by
  change enumHandle ((allVariants cached fs vs).dict true) (fun rt => .inl ((fs.dict true).init rt)) m u q kind key bs = _ at h
  cases q with
  | nil =>
    simp only [enumHandle] at h
    by_cases hk : kind = .update
    · exact .inl ⟨rfl, hk⟩
    · rw [if_neg hk] at h; cases h
  | cons tag q =>
    simp only [enumHandle] at h
    by_cases hv : tag = ((allVariants cached fs vs).dict true).tagOf u.val
    · rw [if_pos hv] at h
      obtain ⟨y, h1, rfl⟩ := Res.map_ok h
      refine .inr ⟨q, ?_, by rw [hv], handledFields_tag (allVariants cached fs vs) h1⟩
      rintro rfl
      exact handledFields_nil (allVariants cached fs vs) h1
    · rw [if_neg hv] at h; cases h

theorem aside_prefix {p q : List U32} {e : Entry} (h : Aside (p ++ q) e) (hn : ¬ Within p e) : Aside p e := by
  cases e with
  | update a b => exact ⟨hn, fun h' => h.2 (h'.trans (List.prefix_append ..))⟩
  | listPush a b => exact hn
  | listPop a => exact ⟨hn, fun h' => h.2 (h'.trans (List.prefix_append ..))⟩
  | mapRemove a k => exact ⟨hn, fun h' => h.2 (h'.trans (List.prefix_append ..))⟩

theorem within_or_aside {p q : List U32} {e : Entry} (h : Within (p ++ q) e ∨ Aside (p ++ q) e) : Within p e ∨ Aside p e := by
  by_cases hw : Within p e
  · exact .inl hw
  · exact .inr (aside_prefix (h.resolve_left fun h' => hw ((List.prefix_append ..).trans h')) hw)

theorem variant_step {t : Ty} (ht : t.WF) {rt : Rt} {v v1 : t.El} (hat : At t rt v) {p : List U32} {vtag : U32} {cached : Bool} {fs : Fields}
    {vs : Variants} {u : EnumV (fs.El ⊕ vs.El)} {put : (Ty.enum true cached fs vs).El → t.El}
    (hp : Part t v p (.enum true cached fs vs) u put) (hv : ((allVariants cached fs vs).dict true).tagOf u.val = vtag) {m : Mode} {e : Entry}
    (he : Within (p ++ [vtag]) e ∨ Aside (p ++ [vtag]) e) {r : Bytes} (hh : applyE (t.dict.handle m) v e = .ok v1 r) :
    (Within p e → Within (p ++ [vtag]) e) ∧ ∃ (u1 : EnumV (fs.El ⊕ vs.El)) (put1 : (Ty.enum true cached fs vs).El → t.El),
      Part t v1 p (.enum true cached fs vs) u1 put1 ∧ ((allVariants cached fs vs).dict true).tagOf u1.val = vtag := by
  by_cases hw : Within p e
  · obtain ⟨e', rfl⟩ := within_under hw
    rw [applyE_part hp ht] at hh
    obtain ⟨u1, h1, rfl⟩ := Res.map_ok hh
    have h2 := enum_applied (m := m) (q := address e') (kind := e'.unpack.1) (key := e'.unpack.2.2.1) (bs := e'.unpack.2.2.2.getD []) (r := r)
      (u := u) (u1 := u1) (cached := cached) (fs := fs) (vs := vs) (by cases e' <;> exact h1)
    rcases h2 with ⟨h2, h3⟩ | ⟨q', h2, h3, h4⟩
    · exfalso
      rcases he with he | he
      · cases e' <;>
        · simp only [address] at h2
          subst h2
          obtain ⟨x, hx⟩ := he
          have := congrArg List.length hx
          simp only [address, under, List.length_append, List.length_cons, List.length_nil] at this
          omega
      · cases e' with
        | update a b =>
          simp only [address] at h2
          subst h2
          refine he.2 ?_
          rw [List.append_nil]
          exact List.prefix_append ..
        | listPush a b => cases h3
        | listPop a => cases h3
        | mapRemove a k => cases h3
    · refine ⟨fun _ => ?_, u1, put, part_put hp u1, h4.trans hv⟩
      rw [hv] at h3
      refine ⟨q', ?_⟩
      cases e' <;>
      · simp only [address] at h3
        subst h3
        simp [address, under]
  · refine ⟨fun h => absurd h hw, ?_⟩
    have ha : Aside p e := (within_or_aside he).resolve_left hw
    rcases applyE_aside hp ht hat m ha with ⟨put', rest, h5⟩ | h5
    · have h6 := h5 u
      rw [part_self hp] at h6
      simp only at h6
      rw [hh] at h6
      obtain ⟨h6, h7⟩ := h6
      cases h6
      exact ⟨u, put', h7, hv⟩
    · obtain ⟨v', e', h6⟩ := h5 u
      rw [part_self hp] at h6
      simp only at h6
      rw [hh] at h6
      cases h6

theorem variant_applies {t : Ty} (ht : t.WF) (hs : t.isState = true) {rt : Rt} {p : List U32} {vtag : U32} {cached : Bool} {fs : Fields}
    {vs : Variants} {m : Mode} : ∀ {es : List Entry} {v v1 : t.El}, At t rt v → ∀ {u : EnumV (fs.El ⊕ vs.El)}
    {put : (Ty.enum true cached fs vs).El → t.El}, Part t v p (.enum true cached fs vs) u put →
    ((allVariants cached fs vs).dict true).tagOf u.val = vtag → (∀ e ∈ es, Within (p ++ [vtag]) e ∨ Aside (p ++ [vtag]) e) →
    Applies (t.dict.handle m) v es v1 → without p es = without (p ++ [vtag]) es ∧ ∃ (u1 : EnumV (fs.El ⊕ vs.El))
      (put1 : (Ty.enum true cached fs vs).El → t.El), Part t v1 p (.enum true cached fs vs) u1 put1 ∧
      ((allVariants cached fs vs).dict true).tagOf u1.val = vtag
  | [], v, v1, _, u, put, hp, hv, _, h => by
    cases h
    exact ⟨rfl, u, put, hp, hv⟩
  | e :: es, v, v1, hat, u, put, hp, hv, he, h => by
    obtain ⟨v2, r, h1, h2⟩ := h
    obtain ⟨h3, u1, put1, h4, h5⟩ := variant_step ht hat hp hv (he e (List.mem_cons_self ..)) h1
    obtain ⟨h6, h7⟩ := variant_applies ht hs (applies_at ht hs hat (es := [e]) ⟨v2, r, h1, rfl⟩) h4 h5
      (fun e h => he e (List.mem_cons_of_mem _ h)) h2
    refine ⟨?_, h7⟩
    have : Within p e ↔ Within (p ++ [vtag]) e := ⟨h3, fun h => (List.prefix_append ..).trans h⟩
    unfold without at h6 ⊢
    rw [List.filter_cons, List.filter_cons, h6]
    simp only [this]

theorem variant_erases {t : Ty} (ht : t.WF) {v v1 : t.El} {p : List U32} {vtag : U32} {cached : Bool} {fs : Fields}
    {vs : Variants} {m : Mode} {u : EnumV (fs.El ⊕ vs.El)} {put : (Ty.enum true cached fs vs).El → t.El}
    (hp : Part t v p (.enum true cached fs vs) u put) {e : Entry} (he : Erases (p ++ [vtag]) e) {r : Bytes}
    (hh : applyE (t.dict.handle m) v e = .ok v1 r) : Erases p e := by
  have key : ∀ {q : List U32}, q <+: p ++ [vtag] → q <+: p ∨ q = p ++ [vtag] := by
    rintro q ⟨x, hx⟩
    rcases List.eq_nil_or_concat x with rfl | ⟨y, z, rfl⟩
    · exact .inr (by simpa using hx)
    · refine .inl ⟨y, ?_⟩
      rw [List.concat_eq_append, ← List.append_assoc] at hx
      exact (List.append_inj' hx rfl).1
  cases e with
  | listPush a b => exact he
  | listPop a => exact he
  | update a b =>
    rcases key he with h | rfl
    · exact h
    · exfalso
      have h1 : applyE (t.dict.handle m) v (under p (.update [vtag] b)) = .ok v1 r := hh
      rw [applyE_part hp ht] at h1
      obtain ⟨u1, h2, -⟩ := Res.map_ok h1
      rcases enum_applied (cached := cached) (m := m) (q := [vtag]) (kind := .update) (key := none) (bs := b) h2 with ⟨h3, -⟩ | ⟨q', h3, h4, -⟩
      · cases h3
      · exact h3 (List.cons.inj h4).2.symm
  | mapRemove a k =>
    rcases key he with h | h
    · exact h
    · exfalso
      obtain rfl : a = p := (List.append_inj' h rfl).1
      have h1 : applyE (t.dict.handle m) v (under a (.mapRemove [] k)) = .ok v1 r := by
        rw [← hh]
        simp [under]
      rw [applyE_part hp ht] at h1
      obtain ⟨u1, h2, -⟩ := Res.map_ok h1
      rcases enum_applied (cached := cached) (m := m) (q := []) (kind := .mapRemove) (key := some k) (bs := []) h2 with ⟨-, h3⟩ | ⟨q', -, h4, -⟩
      · cases h3
      · cases h4

end Steit
