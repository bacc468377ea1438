import Verif.Lemmas.Classes

/-!
# Running classes: deserialization
-/

namespace Steit.Gen

open Steit.Gen.Spec Steit.Spec

/-- A result with what is read renamed. -/
def onFst {α β : Type} (g : α → β) (r : Except Exn (α × Bytes)) : Except Exn (β × Bytes) := r.map fun (v, rest) => (g v, rest)

@[simp] theorem onFst_ok {α β : Type} (g : α → β) (v : α) (rest : Bytes) : onFst g (.ok (v, rest)) = .ok (g v, rest) := rfl
@[simp] theorem onFst_error {α β : Type} (g : α → β) (e : Exn) : onFst g (.error e) = .error e := rfl

theorem untilEnd_map {σ σ' : Type} {g : σ → σ'} {S : σ → Bytes → Except Exn (σ × Bytes)} {S' : σ' → Bytes → Except Exn (σ' × Bytes)} {L : Nat}
    (hS : ∀ v bs, bs.length ≤ L → S' (g v) bs = onFst g (S v bs)) (ht : ∀ v bs, bs ≠ [] → Tame bs 1 (S v bs)) :
    ∀ (n : Nat) (v : σ) (bs : Bytes), bs.length ≤ L → untilEnd S' n (g v) bs = (untilEnd S n v bs).map g
  | n, v, [], _ => by cases n <;> rfl
  | 0, _, _ :: _, _ => rfl
  | n + 1, v, b :: bs, h => by
    have h1 := hS v (b :: bs) h
    have h2 := ht v (b :: bs) (by simp)
    simp only [untilEnd, bind, Except.bind, h1]
    cases hr : S v (b :: bs) with
    | error e => rfl
    | ok r =>
      obtain ⟨v', rest⟩ := r
      rw [hr] at h2
      have h2 : rest.length + 1 ≤ (b :: bs).length := h2
      exact untilEnd_map hS ht n v' rest (by omega)

theorem csNested_map {α β : Type} {g : α → β} {sized : Bool} {read : Bytes → Except Exn (α × Bytes)} {read' : Bytes → Except Exn (β × Bytes)} {bs : Bytes}
    (h : ∀ bs', (sized = true → bs'.length + 1 ≤ bs.length) → bs'.length ≤ bs.length → read' bs' = onFst g (read bs')) :
    csNested sized read' bs = onFst g (csNested sized read bs) := by
  unfold csNested
  cases sized with
  | false => exact h bs (by simp) (Nat.le_refl _)
  | true =>
    have hn := tame_nested bs
    simp only [if_true, bind, Except.bind]
    cases hr : csGetNested bs with
    | error e => rfl
    | ok r =>
      obtain ⟨payload, rest⟩ := r
      rw [hr] at hn
      have hn : payload.length + rest.length + 1 ≤ bs.length := hn
      simp only [h payload (fun _ => by omega) (by omega)]
      cases read payload <;> rfl

theorem addItem_map {α β : Type} {g : α → β} {read : Bytes → Except Exn (α × Bytes)} {read' : Bytes → Except Exn (β × Bytes)} {bs : Bytes} (xs : List α)
    (h : read' bs = onFst g (read bs)) : csAddItem read' (xs.map g) bs = onFst (fun xs => xs.map g) (csAddItem read xs bs) := by
  unfold csAddItem
  simp only [bind, Except.bind, h]
  cases read bs with
  | error e => rfl
  | ok r => obtain ⟨x, rest⟩ := r; simp

theorem dictSet_map {α β : Type} (g : α → β) (k : U32) (x : α) : ∀ es : List (U32 × α),
    dictSet k (g x) (es.map fun (k, x) => (k, g x)) = (dictSet k x es).map fun (k, x) => (k, g x)
  | es => by
    unfold dictSet
    simp only [List.filter_map, List.map_append, List.map_cons, List.map_nil]
    rfl

theorem addEntry_map {α β : Type} {g : α → β} {read : Bytes → Except Exn (α × Bytes)} {read' : Bytes → Except Exn (β × Bytes)} {bs : Bytes}
    (es : List (U32 × α)) (h : ∀ bs', bs'.length ≤ bs.length → read' bs' = onFst g (read bs')) :
    csAddEntry read' (es.map fun (k, x) => (k, g x)) bs = onFst (fun es => es.map fun (k, x) => (k, g x)) (csAddEntry read es bs) := by
  unfold csAddEntry
  have hk := tame_key bs
  simp only [bind, Except.bind]
  cases hr : csReadKey bs with
  | error e => rfl
  | ok r =>
    obtain ⟨⟨tag, w⟩, rest⟩ := r
    rw [hr] at hk
    have hk : rest.length + 1 ≤ bs.length := hk
    simp only [h rest (by omega)]
    cases read rest with
    | error e => rfl
    | ok r => obtain ⟨x, rest'⟩ := r; simp only [onFst_ok, dictSet_map]

/-- Reading a value. -/
def ReadsTy (P : Project) (ρ : Bytes → Str) (t : Ty) : Prop :=
  ∀ k τ n bs, (primitive t = false → bs.length < k) → Runs P k t τ → depth t ≤ n →
    deserialize P ρ n τ bs = onFst (valOf t) (t.csDeserialize ρ bs)

theorem depth_pos : ∀ t : Ty, 0 < depth t
  | .uint _ | .sint _ | .bool | .string | .bytes | .vec _ | .array _ _ | .tuple _ | .option _ | .hashMap _ _ | .list _ | .map _ _
  | .struct _ _ _ | .enum _ _ _ _ => by simp only [depth]; omega
  | .box t => depth_pos t

theorem Runs.prim {P : Project} (ρ : Bytes → Str) {k : Nat} {t : Ty} {τ : Rt} {n : Nat} (hp : primitive t = true) (ht : ∀ u, t ≠ .box u) (h : Runs P k t τ)
    (hn : n ≠ 0) (bs : Bytes) : ∃ p, primOf (readMethod t) = some p ∧ p.read ρ bs = onFst (valOf t) (t.csDeserialize ρ bs) ∧
      deserialize P ρ n τ bs = onFst (valOf t) (t.csDeserialize ρ bs) := by
  obtain ⟨n, rfl⟩ : ∃ m, n = m + 1 := ⟨n - 1, by omega⟩
  cases t with
  | uint w =>
    simp only [Runs] at h; obtain ⟨m, rfl, h⟩ := h
    refine ⟨.uint w, by cases w <;> decide, ?_, ?_⟩ <;> simp [deserialize, h, understood, Prim.read, Ty.csDeserialize, onFst, valOf, bind, Except.bind]
  | sint w =>
    simp only [Runs] at h; obtain ⟨m, rfl, h⟩ := h
    refine ⟨.sint w, by cases w <;> decide, ?_, ?_⟩ <;> simp [deserialize, h, understood, Prim.read, Ty.csDeserialize, onFst, valOf, bind, Except.bind]
  | bool =>
    simp only [Runs] at h; obtain ⟨m, rfl, h⟩ := h
    refine ⟨.bool, by decide, ?_, ?_⟩ <;> simp [deserialize, h, understood, Prim.read, Ty.csDeserialize, onFst, valOf, bind, Except.bind]
  | string =>
    simp only [Runs] at h; obtain ⟨m, rfl, h⟩ := h
    refine ⟨.string, by decide, ?_, ?_⟩ <;> simp [deserialize, h, understood, Prim.read, Ty.csDeserialize, valOf, bind, Except.bind]
  | box t => exact absurd rfl (ht t)
  | _ => cases hp

theorem replaceAt_unknown (ρ : Bytes → Str) : ∀ {fs : Fields} {tag : U32} (wire : WireType) (bs : Bytes) (v : fs.Cs), fieldAt fs tag.toNat = none →
    fs.csReplaceAt ρ tag wire bs v = (csSkipField wire bs).map fun rest => (v, rest)
  | .nil, _, wire, bs, v, _ => by
    simp only [Fields.csReplaceAt, bind, Except.bind]; cases csSkipField wire bs <;> rfl
  | .cons tag' a t fs, tag, wire, bs, v, h => by
    simp only [fieldAt] at h
    split at h
    · cases h
    · rename_i hne
      have h := Option.map_eq_none_iff.1 h
      simp only [Fields.csReplaceAt]
      rw [if_neg (by rintro rfl; exact hne rfl), replaceAt_unknown ρ (fs := fs) wire bs v.2 h]
      simp only [bind, Except.bind]
      cases csSkipField wire bs <;> rfl

theorem replaceAt_known (ρ : Bytes → Str) : ∀ {fs : Fields} {tag : U32} {i : Nat} {attrs : FieldAttrs} {t : Ty} (wire : WireType) (bs : Bytes) (v : fs.Cs),
    fieldAt fs tag.toNat = some (i, attrs, t) →
    onFst (valsOf fs) (fs.csReplaceAt ρ tag wire bs v) = onFst (fun x => (valsOf fs v).set i (valOf t x)) (t.csDeserialize ρ bs)
  | .nil, _, _, _, _, _, _, _, h => by cases h
  | .cons tag' a u fs, tag, i, attrs, t, wire, bs, v, h => by
    simp only [fieldAt] at h
    split at h
    · rename_i he
      cases h
      simp only [Fields.csReplaceAt, bind, Except.bind]
      rw [if_pos (BitVec.eq_of_toNat_eq he)]
      cases u.csDeserialize ρ bs <;> rfl
    · rename_i hne
      obtain ⟨⟨j, a', u'⟩, hj, he⟩ := Option.map_eq_some_iff.1 h
      cases he
      have := replaceAt_known ρ wire bs v.2 hj
      simp only [Fields.csReplaceAt, bind, Except.bind]
      rw [if_neg (by rintro rfl; exact hne rfl)]
      revert this
      cases fs.csReplaceAt ρ tag wire bs v.2 with
      | error e => cases t.csDeserialize ρ bs with
        | error e' => intro h; simp only [onFst_error, Except.error.injEq] at h; simp only [onFst_error, h]
        | ok r => intro h; cases h
      | ok r => cases t.csDeserialize ρ bs with
        | error e' => intro h; cases h
        | ok r' =>
          intro h
          obtain ⟨y, rest⟩ := r
          obtain ⟨y', rest'⟩ := r'
          simp only [onFst_ok, Except.ok.injEq, Prod.mk.injEq] at h
          simp only [onFst_ok, Except.ok.injEq, Prod.mk.injEq, valsOf, List.set_cons_succ, h.1, h.2, and_self]

theorem good_box {attrs : FieldAttrs} {t : Ty} (hg : GoodField attrs t) (ha : attrs.param = false) (hp : primitive t = true) : ∀ u, t ≠ .box u := by
  rintro u rfl
  simp only [GoodField, ha, Bool.false_eq_true, if_false] at hg
  simp only [primitive] at hp
  rw [hg] at hp; cases hp

theorem wire_served {P : Project} {f : CsFile} {args : List Rt} {c : Class} {fs : Fields} (hs : Served P f args c fs) (tag : U32) :
    getWireType P f args c tag = .ok (fs.csGetWireType tag) := by
  rw [fieldAt_client tag hs.good]
  unfold getWireType
  cases hf : fieldAt fs tag.toNat with
  | none =>
    obtain ⟨stmt, h1, h2⟩ := Option.bind_eq_some_iff.1 (hs.serves.unknown _ hf).1
    show Except.bind _ _ = _
    rw [h1]
    show understood (wireAnswer (stateText P f args) stmt) = _
    rw [h2]; rfl
  | some r =>
    obtain ⟨i, attrs, t⟩ := r
    obtain ⟨type, name, _, _, hw, _⟩ := hs.serves.known _ _ _ _ hf
    obtain ⟨stmt, h1, h2⟩ := Option.bind_eq_some_iff.1 hw
    show Except.bind _ _ = _
    rw [h1]
    show understood (wireAnswer (stateText P f args) stmt) = _
    rw [h2]; rfl

theorem replaceAt_served {P : Project} {ρ : Bytes → Str} {k : Nat} {f : CsFile} {args : List Rt} {c : Class} {fs : Fields} {n : Nat}
    (hs : Served P f args c fs) (hr : RunsFields P k f args c.props fs) (hd : AllFields (ReadsTy P ρ) fs) (hn : depthFields fs ≤ n)
    (tag : U32) (wire : WireType) (bs : Bytes) (hl : bs.length < k) (v : fs.Cs) :
    replaceAt P ρ f args c (deserialize P ρ n) tag wire bs (.inst (valsOf fs v)) =
      onFst (fun v => .inst (valsOf fs v)) (fs.csReplaceAt ρ tag wire bs v) := by
  unfold replaceAt
  cases hf : fieldAt fs tag.toNat with
  | none =>
    obtain ⟨stmt, h1, h2⟩ := Option.bind_eq_some_iff.1 (hs.serves.unknown _ hf).2.2
    rw [replaceAt_unknown ρ wire bs v hf]
    simp only [h1, h2, understood, bind, Except.bind]
    cases csSkipField wire bs <;> rfl
  | some r =>
    obtain ⟨i, attrs, t⟩ := r
    obtain ⟨type, name, hp, htype, _, _, ha, _⟩ := hs.serves.known _ _ _ _ hf
    obtain ⟨stmt, h1, h2⟩ := Option.bind_eq_some_iff.1 ha
    obtain ⟨tag', hnth, htag⟩ := nth_of_fieldAt hf
    obtain ⟨type', name', τ, hp', hrt, hrun⟩ := runs_field hr hnth
    rw [hp] at hp'; cases hp'
    have hi := propIndex_get hs.names hp
    have hread := hd i tag' attrs t hnth k τ n bs (fun _ => hl) hrun (Nat.le_trans (nth_depth hnth) hn)
    have hset : onFst (fun v => Val.inst (valsOf fs v)) (fs.csReplaceAt ρ tag wire bs v) =
        onFst Val.inst (onFst (fun x => (valsOf fs v).set i (valOf t x)) (t.csDeserialize ρ bs)) := by
      rw [← replaceAt_known ρ wire bs v hf]
      cases fs.csReplaceAt ρ tag wire bs v <;> rfl
    rw [hset]
    simp only [h1, h2, understood, bind, Except.bind, sourceOf]
    by_cases hpar : attrs.param = true
    · simp only [hpar, if_true, hrt, hread]
      cases t.csDeserialize ρ bs with
      | error e => rfl
      | ok r => obtain ⟨x, rest⟩ := r; simp [setProp, hi, understood, bind, Except.bind]
    · have hpar : attrs.param = false := by simpa using hpar
      simp only [hpar, Bool.false_eq_true, if_false]
      by_cases hprim : primitive t = true
      · obtain ⟨p, hm, hpr, _⟩ := Runs.prim (n := n) ρ hprim (good_box (nth_good hs.good hnth) hpar hprim) hrun (by
          have := nth_depth hnth; have := depth_pos t; omega) bs
        simp only [hprim, if_true, hm, hpr]
        cases t.csDeserialize ρ bs with
        | error e => rfl
        | ok r => obtain ⟨x, rest⟩ := r; simp [setProp, hi, understood, bind, Except.bind]
      · have hst : τ.isState = true := by rw [hrun.state, primitive_state]; simpa using hprim
        simp only [hprim, if_false, hrt, hst, if_true, hread, Bool.false_eq_true]
        cases t.csDeserialize ρ bs with
        | error e => rfl
        | ok r => obtain ⟨x, rest⟩ := r; simp [setProp, hi, understood, bind, Except.bind]

theorem step_served {P : Project} {ρ : Bytes → Str} {k : Nat} {f : CsFile} {args : List Rt} {c : Class} {fs : Fields} {n : Nat}
    (hs : Served P f args c fs) (hr : RunsFields P k f args c.props fs) (hd : AllFields (ReadsTy P ρ) fs) (hn : depthFields fs ≤ n)
    (v : fs.Cs) (bs : Bytes) (hl : bs.length < k) :
    replaceStep (getWireType P f args c) (replaceAt P ρ f args c (deserialize P ρ n)) (.inst (valsOf fs v)) bs =
      onFst (fun v => .inst (valsOf fs v)) (csReplaceStep fs.csGetWireType (fun tag wire bs v => fs.csReplaceAt ρ tag wire bs v) v bs) := by
  unfold replaceStep csReplaceStep
  have hk := tame_key bs
  simp only [bind, Except.bind]
  cases hr' : csReadKey bs with
  | error e => rfl
  | ok r =>
    obtain ⟨⟨tag, w⟩, rest⟩ := r
    rw [hr'] at hk
    have hk : rest.length + 1 ≤ bs.length := hk
    simp only [wire_served hs tag]
    cases w with
    | sized =>
      simp only
      have hne := tame_nested rest
      cases hg : csGetNested rest with
      | error e => rfl
      | ok p =>
        obtain ⟨payload, rest'⟩ := p
        rw [hg] at hne
        have hne : payload.length + rest'.length + 1 ≤ rest.length := hne
        simp only
        split
        · rfl
        · rw [replaceAt_served hs hr hd hn tag .sized payload (by omega) v]
          cases fs.csReplaceAt ρ tag .sized payload v <;> rfl
    | varint =>
      simp only
      split
      · cases csSkipField .varint rest <;> rfl
      · exact replaceAt_served hs hr hd hn tag .varint rest (by omega) v

/-- Reading all fields of a message. -/
theorem loop_served {P : Project} {ρ : Bytes → Str} {k : Nat} {f : CsFile} {args : List Rt} {c : Class} {fs : Fields} {n : Nat}
    (hs : Served P f args c fs) (hr : RunsFields P k f args c.props fs) (hd : AllFields (ReadsTy P ρ) fs) (hn : depthFields fs ≤ n)
    (v : fs.Cs) (bs : Bytes) (hl : bs.length < k) :
    untilEnd (replaceStep (getWireType P f args c) (replaceAt P ρ f args c (deserialize P ρ n))) bs.length (.inst (valsOf fs v)) bs =
      (untilEnd (csReplaceStep fs.csGetWireType (fun tag wire bs v => fs.csReplaceAt ρ tag wire bs v)) bs.length v bs).map
        fun v => .inst (valsOf fs v) :=
  untilEnd_map (g := fun v => Val.inst (valsOf fs v)) (L := bs.length)
    (fun v bs' hl' => step_served hs hr hd hn v bs' (by omega)) (fun v bs _ => tame_replaceStep (tameFields ρ fs) v bs) _ v bs (Nat.le_refl _)

theorem read_class {P : Project} {ρ : Bytes → Str} {k : Nat} {f : CsFile} {args : List Rt} {c : Class} {fs : Fields} {t : Rt} {n : Nat}
    (ht : P.classOf t = some (f, args, c)) (hs : Served P f args c fs) (hr : RunsFields P k f args c.props fs)
    (hd : AllFields (ReadsTy P ρ) fs) (hn : depthFields fs ≤ n) (bs : Bytes) (hl : bs.length < k) :
    deserialize P ρ (n + 1) t bs = onFst (fun v => .inst (valsOf fs v)) (do
      let v ← untilEnd (csReplaceStep fs.csGetWireType (fun tag wire bs v => fs.csReplaceAt ρ tag wire bs v)) bs.length fs.csNew bs
      .ok (v, [])) := by
  have hc := construct_class ht hs hr (by omega) (buildsFields P fs) hn
  have := loop_served hs hr hd hn fs.csNew bs hl
  match t, ht with
  | .message _ _, ht | .variant _ _ _, ht =>
    unfold deserialize
    simp only [ht, understood, bind, Except.bind, hc, hs.serves.isEnum, Bool.false_eq_true, if_false, this]
    cases untilEnd (csReplaceStep fs.csGetWireType (fun tag wire bs v => fs.csReplaceAt ρ tag wire bs v)) bs.length fs.csNew bs <;> rfl

/-- All variants. -/
def AllVariants (Q : Ty → Prop) : Variants → Prop
  | .nil => True
  | .cons _ _ fs vs => AllFields Q fs ∧ AllVariants Q vs

theorem readVariant_known {P : Project} {f : CsFile} {args : List Rt} {c : Class} {names : List (Nat × Text)} {read : Rt → Bytes → Except Exn (Val × Bytes)}
    {tag : U32} {v : Text} {τ : Rt} (he : ServesEnum (stateText P f args) c names) (hv : names.lookup tag.toNat = some v)
    (ht : readType P f args v = some τ) (bs : Bytes) :
    readVariant P f args c read tag bs = (read τ bs).map fun (x, _) => some (tag, x) := by
  obtain ⟨_, _, h⟩ := he.known _ _ hv
  obtain ⟨stmt, h1, h2⟩ := Option.bind_eq_some_iff.1 h
  have hne : stmt ≠ lit! "reader.SkipToEnd(); break;" := by rintro rfl; cases h2
  unfold readVariant
  simp only [h1, understood, bind, Except.bind, hne, if_false, h2, ht]
  cases read τ bs with
  | error e => rfl
  | ok r => obtain ⟨x, rest⟩ := r; simp [Except.map]

theorem readVariant_unknown {P : Project} {f : CsFile} {args : List Rt} {c : Class} {names : List (Nat × Text)} {read : Rt → Bytes → Except Exn (Val × Bytes)}
    {tag : U32} (he : ServesEnum (stateText P f args) c names) (hv : names.lookup tag.toNat = none) (bs : Bytes) :
    readVariant P f args c read tag bs = .ok none := by
  obtain ⟨_, _, _, _, h⟩ := he.unknown _ hv
  unfold readVariant
  simp only [h, understood, bind, Except.bind, if_true]

theorem csVariant_unknown (ρ : Bytes → Str) : ∀ {vs : Variants} {tag : U32} (bs : Bytes), tag ∉ vs.tags → vs.csVariant ρ tag bs = .ok none
  | .nil, _, _, _ => rfl
  | .cons tag' _ fs vs, tag, bs, h => by
    simp only [Variants.tags, List.mem_cons, not_or] at h
    simp only [Variants.csVariant, bind, Except.bind]
    rw [if_neg h.1, csVariant_unknown ρ bs h.2]; rfl

theorem readVariant_variants {P : Project} {ρ : Bytes → Str} {k : Nat} {x : Text} {f : CsFile} {args : List Rt} {names : List (Nat × Text)} {n : Nat}
    (he : ServesEnum (stateText P f args) f.outer names) : ∀ {vs : Variants}, RunsVariants P k x f args names vs → AllVariants (ReadsTy P ρ) vs →
    depthVariants vs ≤ n → ∀ (tag : U32) (bs : Bytes), bs.length + 1 < k → tag ∈ vs.tags →
    readVariant P f args f.outer (deserialize P ρ (n + 1)) tag bs = (vs.csVariant ρ tag bs).map fun v => v.map (fun v => match variantOf vs v with
      | .enum tag x => (tag, x)
      | _ => (0, .null)) 
  | .nil, _, _, _, _, _, _, h => by cases h
  | .cons tag' _ fs vs, hr, hd, hn, tag, bs, hl, h => by
    simp only [RunsVariants] at hr
    simp only [depthVariants] at hn
    obtain ⟨⟨v, c, hv, ht, hc, hs, hf⟩, hrs⟩ := hr
    simp only [Variants.csVariant]
    by_cases htag : tag = tag'
    · subst htag
      rw [readVariant_known he hv ht, read_class hc hs hf hd.1 (by omega) bs (by omega), if_pos rfl]
      simp only [bind, Except.bind]
      cases untilEnd (csReplaceStep fs.csGetWireType (fun tag wire bs v => fs.csReplaceAt ρ tag wire bs v)) bs.length fs.csNew bs <;> rfl
    · simp only [Variants.tags, List.mem_cons] at h
      rw [readVariant_variants he hrs hd.2 (by omega) tag bs hl (h.resolve_left htag), if_neg htag]
      simp only [bind, Except.bind]
      cases vs.csVariant ρ tag bs with
      | error e => rfl
      | ok r => cases r <;> rfl

theorem variantOf_enum : ∀ (vs : Variants) (v : vs.Cs), ∃ tag x, variantOf vs v = .enum tag (.inst x)
  | .nil, v => v.elim
  | .cons tag _ fs vs, v => by
    cases v with
    | inl x => exact ⟨tag, _, rfl⟩
    | inr x => exact variantOf_enum vs x

/-- Reading the variant of an enum. -/
theorem readVariant_enum {P : Project} {ρ : Bytes → Str} {k : Nat} {x : Text} {f : CsFile} {args : List Rt} {names : List (Nat × Text)} {n : Nat}
    {fs : Fields} {vs : Variants} {a b : Bool} (he : ServesEnum (stateText P f args) f.outer names)
    (hk : ∀ m, (names.lookup m).isSome → m = 0 ∨ ∃ tag ∈ vs.tags, tag.toNat = m)
    (hz : ∃ v c, names.lookup 0 = some v ∧ readType P f args v = some (.variant x args v) ∧
        P.classOf (.variant x args v) = some (f, args, c) ∧ Served P f args c fs ∧ RunsFields P k f args c.props fs)
    (hr : RunsVariants P k x f args names vs) (hd : AllFields (ReadsTy P ρ) fs) (hds : AllVariants (ReadsTy P ρ) vs)
    (hn : depthFields fs ≤ n) (hns : depthVariants vs ≤ n) (tag : U32) (bs : Bytes) (hl : bs.length + 1 < k) :
    ((readVariant P f args f.outer (deserialize P ρ (n + 1)) tag bs).map fun r => r.map fun (tag, x) => Val.enum tag x) =
      (do if tag = 0#32 then do
            let x ← (Ty.struct false false fs).csDeserialize ρ bs
            .ok (some (Sum.inl x.1))
          else do
            let x ← vs.csVariant ρ tag bs
            .ok (x.map Sum.inr) : Except Exn (Option (Ty.enum a b fs vs).Cs)).map fun r => r.map fun v => valOf (Ty.enum a b fs vs) v := by
  by_cases h0 : tag = 0#32
  · subst h0
    obtain ⟨v, c, hv, ht, hc, hs, hf⟩ := hz
    rw [readVariant_known (tag := 0#32) he hv ht, read_class hc hs hf hd hn bs (by omega)]
    simp only [if_true, Ty.csDeserialize, bind, Except.bind]
    cases untilEnd (csReplaceStep fs.csGetWireType (fun tag wire bs v => fs.csReplaceAt ρ tag wire bs v)) bs.length fs.csNew bs <;> rfl
  · rw [if_neg h0]
    by_cases hm : tag ∈ vs.tags
    · rw [readVariant_variants he hr hds hns tag bs hl hm]
      simp only [bind, Except.bind]
      cases vs.csVariant ρ tag bs with
      | error e => rfl
      | ok r =>
        cases r with
        | none => rfl
        | some v =>
          obtain ⟨t', y, hy⟩ := variantOf_enum vs v
          simp only [Except.map, Option.map_some, valOf, hy]
    · have : names.lookup tag.toNat = none := by
        cases hl : names.lookup tag.toNat with
        | none => rfl
        | some _ =>
          rcases hk tag.toNat (by rw [hl]; rfl) with h | ⟨t', ht', he'⟩
          · exact absurd (BitVec.eq_of_toNat_eq (y := 0#32) h) h0
          · exact absurd (BitVec.eq_of_toNat_eq he' ▸ ht') hm
      rw [readVariant_unknown he this, csVariant_unknown ρ bs hm]
      rfl

theorem loop_items {P : Project} {ρ : Bytes → Str} {k : Nat} {t : Ty} {a : Rt} {n : Nat} (ht : ReadsTy P ρ t) (hr : Runs P (k - 1) t a) (hn : depth t ≤ n)
    (bs : Bytes) (hl : bs.length < k) :
    untilEnd (csAddItem (csNested a.isSized (deserialize P ρ n a))) bs.length [] bs =
      (untilEnd (csAddItem (csNested (t.isCsState || t.isCsString) (fun bs => t.csDeserialize ρ bs))) bs.length [] bs).map
        fun xs => xs.map fun x => valOf t x := by
  refine untilEnd_map (g := fun xs : List t.Cs => xs.map fun x => valOf t x) (L := bs.length) (fun v bs' hl' => ?_)
    (fun v bs _ => tame_addItem (tameTy ρ t) v bs) _ [] bs (Nat.le_refl _)
  refine addItem_map v ?_
  rw [hr.sized]
  refine csNested_map fun bs'' h1 h2 => ht (k - 1) a n bs'' (fun hp => ?_) hr hn
  have := h1 (by rw [primitive_state, hp]; rfl)
  omega

theorem loop_entries {P : Project} {ρ : Bytes → Str} {k : Nat} {t : Ty} {a : Rt} {n : Nat} (ht : ReadsTy P ρ t) (hr : Runs P (k - 1) t a) (hn : depth t ≤ n)
    (bs : Bytes) (hl : bs.length < k) :
    untilEnd (csAddEntry (csNested a.isSized (deserialize P ρ n a))) bs.length [] bs =
      (untilEnd (csAddEntry (csNested (t.isCsState || t.isCsString) (fun bs => t.csDeserialize ρ bs))) bs.length [] bs).map
        fun xs => xs.map fun (k, x) => (k, valOf t x) := by
  refine untilEnd_map (g := fun xs : List (U32 × t.Cs) => xs.map fun (k, x) => (k, valOf t x)) (L := bs.length) (fun v bs' hl' => ?_)
    (fun v bs _ => tame_addEntry (tameTy ρ t) v bs) _ [] bs (Nat.le_refl _)
  refine addEntry_map v fun bs'' h => ?_
  rw [hr.sized]
  refine csNested_map fun bs''' h1 h2 => ht (k - 1) a n bs''' (fun hp => ?_) hr hn
  have := h1 (by rw [primitive_state, hp]; rfl)
  omega

theorem pred {n m : Nat} (h : m + 1 ≤ n) : ∃ n', n = n' + 1 ∧ m ≤ n' := ⟨n - 1, by omega, by omega⟩

mutual
theorem readsTy (P : Project) (ρ : Bytes → Str) : (t : Ty) → ReadsTy P ρ t
  | .uint w => fun k τ n bs _ h hd => (Runs.prim ρ rfl (fun u => by simp) h (by simp only [depth] at hd; omega) bs).choose_spec.2.2
  | .sint w => fun k τ n bs _ h hd => (Runs.prim ρ rfl (fun u => by simp) h (by simp only [depth] at hd; omega) bs).choose_spec.2.2
  | .bool => fun k τ n bs _ h hd => (Runs.prim ρ rfl (fun u => by simp) h (by simp only [depth] at hd; omega) bs).choose_spec.2.2
  | .string => fun k τ n bs _ h hd => (Runs.prim ρ rfl (fun u => by simp) h (by simp only [depth] at hd; omega) bs).choose_spec.2.2
  | .bytes => fun k τ n bs _ h hd => by
    simp only [Runs] at h; subst h
    simp only [depth] at hd; obtain ⟨n, rfl, hdn⟩ := pred hd
    rfl
  | .vec t => fun k τ n bs hl h hd => by
    simp only [Runs] at h; obtain ⟨a, rfl, h⟩ := h
    simp only [depth] at hd; obtain ⟨n, rfl, hdn⟩ := pred hd
    have := loop_items (readsTy P ρ t) h hdn bs (hl rfl)
    simp only [deserialize, Ty.csDeserialize, bind, Except.bind, this]
    rw [if_neg (by decide), if_neg (by decide)]
    cases untilEnd (csAddItem (csNested (t.isCsState || t.isCsString) (fun bs => t.csDeserialize ρ bs))) bs.length [] bs <;> rfl
  | .array _ t => fun k τ n bs hl h hd => by
    simp only [Runs] at h; obtain ⟨a, rfl, h⟩ := h
    simp only [depth] at hd; obtain ⟨n, rfl, hdn⟩ := pred hd
    have := loop_items (readsTy P ρ t) h hdn bs (hl rfl)
    simp only [deserialize, Ty.csDeserialize, bind, Except.bind, this]
    rw [if_neg (by decide), if_neg (by decide)]
    cases untilEnd (csAddItem (csNested (t.isCsState || t.isCsString) (fun bs => t.csDeserialize ρ bs))) bs.length [] bs <;> rfl
  | .tuple _ => fun k τ n bs _ h _ => by simp only [Runs] at h
  | .option t => fun k τ n bs hl h hd => by
    simp only [Runs] at h; obtain ⟨a, rfl, h⟩ := h
    simp only [depth] at hd; obtain ⟨n, rfl, hdn⟩ := pred hd
    simp only [deserialize, Ty.csDeserialize, bind, Except.bind]
    rw [if_pos trivial]
    split
    · rfl
    · rw [h.sized, csNested_map (sized := t.isCsState || t.isCsString) (bs := bs) (g := valOf t) (read := fun bs => t.csDeserialize ρ bs) fun bs' h1 h2 => readsTy P ρ t (k - 1) a n bs' (fun hp => by
        have := h1 (by rw [primitive_state, hp]; rfl)
        have := hl rfl
        omega) h hdn]
      cases csNested (t.isCsState || t.isCsString) (fun bs => t.csDeserialize ρ bs) bs <;> rfl
  | .box t => fun k τ n bs hl h hd => by
    simp only [Runs] at h; simp only [depth] at hd
    exact readsTy P ρ t k τ n bs hl h hd
  | .hashMap _ _ => fun k τ n bs _ h _ => by simp only [Runs] at h
  | .list t => fun k τ n bs hl h hd => by
    simp only [Runs] at h; obtain ⟨a, rfl, h⟩ := h
    simp only [depth] at hd; obtain ⟨n, rfl, hdn⟩ := pred hd
    have := loop_items (readsTy P ρ t) h hdn bs (hl rfl)
    simp only [deserialize, Ty.csDeserialize, bind, Except.bind, this]
    rw [if_neg (by decide), if_neg (by decide)]
    cases untilEnd (csAddItem (csNested (t.isCsState || t.isCsString) (fun bs => t.csDeserialize ρ bs))) bs.length [] bs <;> rfl
  | .map _ t => fun k τ n bs hl h hd => by
    simp only [Runs] at h; obtain ⟨a, rfl, h⟩ := h
    simp only [depth] at hd; obtain ⟨n, rfl, hdn⟩ := pred hd
    have := loop_entries (readsTy P ρ t) h hdn bs (hl rfl)
    simp only [deserialize, Ty.csDeserialize, bind, Except.bind, this]
    rw [if_neg (by decide), if_pos trivial]
    cases untilEnd (csAddEntry (csNested (t.isCsState || t.isCsString) (fun bs => t.csDeserialize ρ bs))) bs.length [] bs <;> rfl
  | .struct _ _ fs => fun k τ n bs hl h hd => by
    simp only [Runs] at h; obtain ⟨x, args, rfl, h⟩ := h
    have hl := hl rfl
    obtain ⟨f, hf, hs, hr⟩ := h (by omega)
    simp only [depth] at hd; obtain ⟨n, rfl, hdn⟩ := pred hd
    rw [read_class (by simp [Project.classOf, hf]) hs hr (readsFields P ρ fs) hdn bs hl]
    rfl
  | .enum a b fs vs => fun k τ n bs hl h hd => by
    have hc := builds P (.enum a b fs vs) k τ n (by have := hl rfl; omega) h hd
    simp only [Runs] at h; obtain ⟨x, args, rfl, h⟩ := h
    have hl := hl rfl
    obtain ⟨f, names, hf, he, hk, hz, hr⟩ := h (by omega)
    simp only [depth] at hd
    obtain ⟨n, rfl⟩ : ∃ m, n = m + 2 := ⟨n - 2, by omega⟩
    unfold deserialize
    simp only [Project.classOf, hf, Option.map_some, understood, bind, Except.bind, hc, he.isEnum, if_true, Ty.csDeserialize]
    have ht := tame_uint .w32 bs
    have hd' : csReadUInt32 bs = csReadUInt .w32 bs := rfl
    cases hu : csReadUInt32 bs with
    | error e => rfl
    | ok r =>
      obtain ⟨tag, rest⟩ := r
      rw [← hd', hu] at ht
      have ht : rest.length + 1 ≤ bs.length := ht
      have := readVariant_enum (a := a) (b := b) he hk hz hr (readsFields P ρ fs) (readsVariants P ρ vs) (n := n) (by omega) (by omega) tag rest
        (by omega)
      simp only
      revert this
      by_cases h0 : tag = 0#32
      · simp only [h0, if_true, Ty.csDeserialize, bind, Except.bind]
        cases untilEnd (csReplaceStep fs.csGetWireType (fun tag wire bs v => fs.csReplaceAt ρ tag wire bs v)) rest.length fs.csNew rest with
        | error e =>
          cases readVariant P f args f.outer (deserialize P ρ (n + 1)) 0#32 rest with
          | error e' => intro h; cases h; rfl
          | ok r => intro h; cases h
        | ok v =>
          cases readVariant P f args f.outer (deserialize P ρ (n + 1)) 0#32 rest with
          | error e' => intro h; cases h
          | ok r =>
            cases r with
            | none => intro h; cases h
            | some r =>
              intro h
              simp only [Except.map, Option.map_some, Except.ok.injEq, Option.some.injEq] at h
              simp only [h, onFst_ok]
      · simp only [h0, if_false, bind, Except.bind]
        cases vs.csVariant ρ tag rest with
        | error e =>
          cases readVariant P f args f.outer (deserialize P ρ (n + 1)) tag rest with
          | error e' => intro h; cases h; rfl
          | ok r => intro h; cases h
        | ok v =>
          cases readVariant P f args f.outer (deserialize P ρ (n + 1)) tag rest with
          | error e' => intro h; cases h
          | ok r =>
            cases r with
            | none =>
              cases v with
              | none => intro _; rfl
              | some v => intro h; cases h
            | some r =>
              cases v with
              | none => intro h; cases h
              | some v =>
                intro h
                simp only [Except.map, Option.map_some, Except.ok.injEq, Option.some.injEq] at h
                simp only [h, onFst_ok]

theorem readsFields (P : Project) (ρ : Bytes → Str) : (fs : Fields) → AllFields (ReadsTy P ρ) fs
  | .nil => fun i tag attrs t h => nomatch h
  | .cons _ _ t fs => fun i tag attrs u h => by
    cases i with
    | zero => simp only [nth, Option.some.injEq] at h; cases h; exact readsTy P ρ t
    | succ i => exact readsFields P ρ fs i tag attrs u h

theorem readsVariants (P : Project) (ρ : Bytes → Str) : (vs : Variants) → AllVariants (ReadsTy P ρ) vs
  | .nil => trivial
  | .cons _ _ fs vs => ⟨readsFields P ρ fs, readsVariants P ρ vs⟩
end

end Steit.Gen
