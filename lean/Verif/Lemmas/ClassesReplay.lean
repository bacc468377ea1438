import Verif.Lemmas.ClassesRead

/-!
# Running classes: replay
-/

namespace Steit.Gen

open Steit.Gen.Spec Steit.Spec

/-- The bytes an action carries. -/
def _root_.Steit.CsAct.size : CsAct → Nat
  | .update _ value => value.length
  | .push item => item.length
  | _ => 0

theorem lookup_vals {α β : Type} (g : α → β) (k : U32) : ∀ es : List (U32 × α), (es.map fun (k, x) => (k, g x)).lookup k = (es.lookup k).map g
  | [] => rfl
  | (k', x) :: es => by
    simp only [List.map_cons, List.lookup_cons]
    cases k == k'
    · exact lookup_vals g k es
    · rfl

theorem dictRemove_map {α β : Type} (g : α → β) (k : U32) (es : List (U32 × α)) :
    dictRemove k (es.map fun (k, x) => (k, g x)) = (dictRemove k es).map fun (k, x) => (k, g x) := by
  unfold dictRemove
  simp only [List.filter_map]
  rfl

theorem dictPut_map {α β : Type} (g : α → β) (k : U32) (x : α) : ∀ es : List (U32 × α),
    dictPut k (g x) (es.map fun (k, x) => (k, g x)) = (dictPut k x es).map fun (k, x) => (k, g x)
  | [] => rfl
  | (k', y) :: es => by
    simp only [List.map_cons, dictPut]
    split
    · rfl
    · simp only [List.map_cons, dictPut_map g k x es]

/-- Performing at a path, as the recursion sees it. -/
theorem csAt_eq (ρ : Bytes → Str) (act : CsAct) (t : Ty) (path : List U32) (v : t.Cs) :
    descend (t.csPerform ρ act) (fun k path v => t.csBelow ρ act k path v) path v = t.csAt ρ act path v := rfl

theorem perform_class {P : Project} {ρ : Bytes → Str} {k : Nat} {f : CsFile} {args : List Rt} {c : Class} {fs : Fields} {τ : Rt} {n : Nat}
    (ht : P.classOf τ = some (f, args, c)) (hs : Served P f args c fs) (hr : RunsFields P k f args c.props fs) (hn : depthFields fs ≤ n)
    (act : CsAct) (hl : act.size < k) (v : fs.Cs) :
    perform P ρ n act τ (.inst (valsOf fs v)) = (fs.csPerform ρ act v).map fun v => .inst (valsOf fs v) := by
  match τ, ht with
  | .message _ _, ht | .variant _ _ _, ht =>
    unfold perform
    cases act with
    | update tag value =>
      simp only [ht, understood, bind, Except.bind, wire_served hs tag, hs.serves.isEnum, Bool.false_eq_true, if_false, Fields.csPerform]
      cases fs.csGetWireType tag with
      | none => rfl
      | some wire =>
        simp only [replaceAt_served hs hr (readsFields P ρ fs) hn tag wire value hl v]
        cases fs.csReplaceAt ρ tag wire value v <;> rfl
    | _ => simp only [ht, understood, bind, Except.bind, Fields.csPerform, Except.map]

theorem perform_enum {P : Project} {ρ : Bytes → Str} {k : Nat} {x : Text} {f : CsFile} {args : List Rt} {names : List (Nat × Text)} {n : Nat}
    {fs : Fields} {vs : Variants} {a b : Bool} (hx : P.find x args.length = some f) (he : ServesEnum (stateText P f args) f.outer names)
    (hk : ∀ m, (names.lookup m).isSome → m = 0 ∨ ∃ tag ∈ vs.tags, tag.toNat = m)
    (hz : ∃ v c, names.lookup 0 = some v ∧ readType P f args v = some (.variant x args v) ∧
        P.classOf (.variant x args v) = some (f, args, c) ∧ Served P f args c fs ∧ RunsFields P k f args c.props fs)
    (hr : RunsVariants P k x f args names vs) (hn : depth (.enum a b fs vs) ≤ n) (act : CsAct) (hl : act.size + 1 < k) (v : (Ty.enum a b fs vs).Cs) :
    perform P ρ n act (.message x args) (valOf (.enum a b fs vs) v) = ((Ty.enum a b fs vs).csPerform ρ act v).map (valOf (.enum a b fs vs)) := by
  simp only [depth] at hn
  obtain ⟨n, rfl⟩ : ∃ m, n = m + 1 := ⟨n - 1, by omega⟩
  unfold perform
  cases act with
  | update tag value =>
    have hrv := readVariant_enum (a := a) (b := b) he hk hz hr (readsFields P ρ fs) (readsVariants P ρ vs) (n := n) (by omega) (by omega) tag value hl
    simp only [Project.classOf, hx, Option.map_some, understood, bind, Except.bind]
    cases hl : names.lookup tag.toNat with
    | none =>
      have h0 : tag ≠ 0#32 := by
        rintro rfl
        obtain ⟨v, _, hv, _⟩ := hz
        rw [show (0#32).toNat = 0 from rfl, hv] at hl; cases hl
      rw [readVariant_unknown he hl] at hrv
      obtain ⟨_, _, hw, _⟩ := he.unknown _ hl
      obtain ⟨stmt, h1, h2⟩ := Option.bind_eq_some_iff.1 hw
      have hg : getWireType P f args f.outer tag = .ok none := by
        unfold getWireType
        show Except.bind _ _ = _
        rw [h1]
        show understood (wireAnswer (stateText P f args) stmt) = _
        rw [h2]; rfl
      simp only [hg, Ty.csPerform, if_neg h0, bind, Except.bind] at hrv ⊢
      revert hrv
      cases vs.csVariant ρ tag value with
      | error e => intro h; cases h
      | ok r =>
        cases r with
        | none => intro _; rfl
        | some r => intro h; cases h
    | some name =>
      obtain ⟨hw, _⟩ := he.known _ _ hl
      obtain ⟨stmt, h1, h2⟩ := Option.bind_eq_some_iff.1 hw
      have hg : getWireType P f args f.outer tag = .ok (some .sized) := by
        unfold getWireType
        show Except.bind _ _ = _
        rw [h1]
        show understood (wireAnswer (stateText P f args) stmt) = _
        rw [h2]; rfl
      simp only [hg, he.isEnum, if_true, Ty.csPerform, bind, Except.bind] at hrv ⊢
      revert hrv
      by_cases h0 : tag = 0#32
      · simp only [h0, if_true]
        cases (Ty.struct false false fs).csDeserialize ρ value with
        | error e =>
          cases readVariant P f args f.outer (deserialize P ρ (n + 1)) 0#32 value with
          | error e' => intro h; cases h; rfl
          | ok r => intro h; cases h
        | ok y =>
          cases readVariant P f args f.outer (deserialize P ρ (n + 1)) 0#32 value with
          | error e' => intro h; cases h
          | ok r =>
            cases r with
            | none => intro h; cases h
            | some r =>
              intro h
              simp only [Except.map, Option.map_some, Except.ok.injEq, Option.some.injEq] at h
              simp only [h, Except.map]
      · simp only [h0, if_false]
        cases vs.csVariant ρ tag value with
        | error e =>
          cases readVariant P f args f.outer (deserialize P ρ (n + 1)) tag value with
          | error e' => intro h; cases h; rfl
          | ok r => intro h; cases h
        | ok y =>
          cases readVariant P f args f.outer (deserialize P ρ (n + 1)) tag value with
          | error e' => intro h; cases h
          | ok r =>
            cases r with
            | none =>
              cases y with
              | none => intro _; rfl
              | some y => intro h; cases h
            | some r =>
              cases y with
              | none => intro h; cases h
              | some y =>
                intro h
                simp only [Except.map, Option.map_some, Except.ok.injEq, Option.some.injEq] at h
                simp only [h, Except.map]
  | _ => simp only [Project.classOf, hx, Option.map_some, understood, bind, Except.bind, Ty.csPerform, Except.map]

theorem performs {P : Project} (ρ : Bytes → Str) : ∀ {t : Ty}, primitive t = false → ∀ {k : Nat} {τ : Rt} {n : Nat} (act : CsAct) (v : t.Cs),
    act.size + 1 < k → Runs P k t τ → depth t ≤ n → perform P ρ n act τ (valOf t v) = (t.csPerform ρ act v).map (valOf t)
  | .uint _, h, _, _, _, _, _, _, _, _ => by cases h
  | .sint _, h, _, _, _, _, _, _, _, _ => by cases h
  | .bool, h, _, _, _, _, _, _, _, _ => by cases h
  | .string, h, _, _, _, _, _, _, _, _ => by cases h
  | .bytes, _, _, _, _, act, v, _, h, _ => by
    simp only [Runs] at h; subst h
    cases act <;> rfl
  | .vec t, _, _, _, _, act, v, _, h, _ => by
    simp only [Runs] at h; obtain ⟨a, rfl, h⟩ := h
    unfold perform
    simp only
    rw [if_neg (by decide), if_neg (by decide)]
    cases act <;> rfl
  | .array _ t, _, _, _, _, act, v, _, h, _ => by
    simp only [Runs] at h; obtain ⟨a, rfl, h⟩ := h
    unfold perform
    simp only
    rw [if_neg (by decide), if_neg (by decide)]
    cases act <;> rfl
  | .tuple _, _, _, _, _, _, _, _, h, _ => by simp only [Runs] at h
  | .option t, _, _, _, _, act, v, _, h, _ => by
    simp only [Runs] at h; obtain ⟨a, rfl, h⟩ := h
    unfold perform
    simp only
    rw [if_neg (by decide), if_neg (by decide)]
    cases act <;> rfl
  | .box t, hp, _, _, _, act, v, hl, h, hn => by
    simp only [Runs] at h; simp only [depth] at hn
    have := performs ρ (t := t) hp act v hl h hn
    simpa only [valOf, Ty.csPerform] using this
  | .hashMap _ _, _, _, _, _, _, _, _, h, _ => by simp only [Runs] at h
  | .list t, _, k, _, n, act, v, hl, h, hn => by
    simp only [Runs] at h; obtain ⟨a, rfl, h⟩ := h
    simp only [depth] at hn
    have hread : ∀ bs : Bytes, bs.length + 1 < k → deserialize P ρ n a bs = onFst (valOf t) (t.csDeserialize ρ bs) :=
      fun bs hl => readsTy P ρ t (k - 1) a n bs (fun _ => by omega) h (by omega)
    unfold perform
    simp only [valOf]
    rw [if_pos trivial]
    cases act with
    | update tag value =>
      simp only [Ty.csPerform, List.length_map]
      split
      · rfl
      · simp only [hread value hl, bind, Except.bind]
        cases t.csDeserialize ρ value with
        | error e => rfl
        | ok r => obtain ⟨x, rest⟩ := r; simp [Except.map, valOf]
    | push item =>
      simp only [Ty.csPerform, hread item hl, bind, Except.bind]
      cases t.csDeserialize ρ item with
      | error e => rfl
      | ok r => obtain ⟨x, rest⟩ := r; simp [Except.map, valOf]
    | pop =>
      simp only [Ty.csPerform]
      cases v with
      | nil => rfl
      | cons x v => simp [Except.map, valOf]
    | remove key => rfl
  | .map _ t, _, k, _, n, act, v, hl, h, hn => by
    simp only [Runs] at h; obtain ⟨a, rfl, h⟩ := h
    simp only [depth] at hn
    have hread : ∀ bs : Bytes, bs.length + 1 < k → deserialize P ρ n a bs = onFst (valOf t) (t.csDeserialize ρ bs) :=
      fun bs hl => readsTy P ρ t (k - 1) a n bs (fun _ => by omega) h (by omega)
    unfold perform
    simp only [valOf]
    rw [if_neg (by decide), if_pos trivial]
    cases act with
    | update tag value =>
      simp only [Ty.csPerform, hread value hl, bind, Except.bind]
      cases t.csDeserialize ρ value with
      | error e => rfl
      | ok r => obtain ⟨x, rest⟩ := r; simp only [onFst_ok, dictSet_map, Except.map, valOf]
    | push item => rfl
    | pop => rfl
    | remove key =>
      simp only [Ty.csPerform, lookup_vals, Option.isNone_map, dictRemove_map]
      split <;> rfl
  | .struct _ _ fs, _, k, _, n, act, v, hl, h, hn => by
    simp only [Runs] at h; obtain ⟨x, args, rfl, h⟩ := h
    obtain ⟨f, hf, hs, hr⟩ := h (by omega)
    simp only [depth] at hn
    exact perform_class (by simp [Project.classOf, hf]) hs hr (by omega) act (by omega) v
  | .enum a b fs vs, _, k, _, n, act, v, hl, h, hn => by
    simp only [Runs] at h; obtain ⟨x, args, rfl, h⟩ := h
    obtain ⟨f, names, hf, he, hk, hz, hr⟩ := h (by omega)
    exact perform_enum hf he hk hz hr hn act hl v

/-! ## Paths -/

/-- Performing an action below a value. -/
def AtTy (P : Project) (ρ : Bytes → Str) (act : CsAct) (t : Ty) : Prop := primitive t = false → ∀ k τ n path (v : t.Cs), act.size + path.length + 1 < k →
  Runs P k t τ → depth t ≤ n → performAt P ρ act n τ path (valOf t v) = (t.csAt ρ act path v).map (valOf t)

theorem below_unknown (ρ : Bytes → Str) (act : CsAct) : ∀ {fs : Fields} {tag : U32} (path : List U32) (v : fs.Cs), fieldAt fs tag.toNat = none →
    fs.csBelow ρ act tag path v = .ok v
  | .nil, _, _, _, _ => rfl
  | .cons tag' a t fs, tag, path, v, h => by
    simp only [fieldAt] at h
    split at h
    · cases h
    · rename_i hne
      have h := Option.map_eq_none_iff.1 h
      simp only [Fields.csBelow]
      rw [if_neg (by rintro rfl; exact hne rfl), below_unknown ρ act (fs := fs) path v.2 h]
      rfl

theorem below_known (ρ : Bytes → Str) (act : CsAct) : ∀ {fs : Fields} {tag : U32} {i : Nat} {attrs : FieldAttrs} {t : Ty} (path : List U32) (v : fs.Cs),
    fieldAt fs tag.toNat = some (i, attrs, t) → ∃ x : t.Cs, (valsOf fs v)[i]? = some (valOf t x) ∧
    (fs.csBelow ρ act tag path v).map (valsOf fs) =
      if t.isCsState then (t.csAt ρ act path x).map fun y => (valsOf fs v).set i (valOf t y) else .ok (valsOf fs v)
  | .nil, _, _, _, _, _, _, h => by cases h
  | .cons tag' a u fs, tag, i, attrs, t, path, v, h => by
    simp only [fieldAt] at h
    split at h
    · rename_i he
      cases h
      refine ⟨v.1, rfl, ?_⟩
      simp only [Fields.csBelow, bind, Except.bind]
      rw [if_pos (BitVec.eq_of_toNat_eq he)]
      split
      · rw [csAt_eq]
        cases u.csAt ρ act path v.1 <;> rfl
      · rfl
    · rename_i hne
      obtain ⟨⟨j, a', u'⟩, hj, he⟩ := Option.map_eq_some_iff.1 h
      cases he
      obtain ⟨x, h1, h2⟩ := below_known ρ act path v.2 hj
      refine ⟨x, by simpa [valsOf] using h1, ?_⟩
      simp only [Fields.csBelow, bind, Except.bind]
      rw [if_neg (by rintro rfl; exact hne rfl)]
      revert h2
      cases fs.csBelow ρ act tag path v.2 with
      | error e =>
        split
        · cases t.csAt ρ act path x with
          | error e' => intro h; cases h; rfl
          | ok r => intro h; cases h
        · intro h; cases h
      | ok r =>
        split
        · cases t.csAt ρ act path x with
          | error e' => intro h; cases h
          | ok r' =>
            intro h
            simp only [Except.map, Except.ok.injEq] at h
            simp only [Except.map, valsOf, List.set_cons_succ, h]
        · intro h
          simp only [Except.map, Except.ok.injEq] at h
          simp only [Except.map, valsOf, h]

theorem at_class {P : Project} {ρ : Bytes → Str} {k : Nat} {f : CsFile} {args : List Rt} {c : Class} {fs : Fields} {τ : Rt} {n : Nat} {act : CsAct}
    (ht : P.classOf τ = some (f, args, c)) (hs : Served P f args c fs) (hr : RunsFields P k f args c.props fs) (hb : AllFields (AtTy P ρ act) fs)
    (hn : depthFields fs ≤ n) : ∀ (path : List U32), act.size + path.length < k → ∀ (v : fs.Cs),
    performAt P ρ act (n + 1) τ path (.inst (valsOf fs v)) =
      (descend (fs.csPerform ρ act) (fun k path v => fs.csBelow ρ act k path v) path v).map fun v => .inst (valsOf fs v)
  | [], hl, v => by
    unfold performAt
    exact perform_class ht hs hr (by omega) act (by simpa using hl) v
  | tag :: path, hl, v => by
    simp only [List.length_cons] at hl
    unfold performAt
    simp only [descend]
    have key : (do
        let stmt ← understood (c.nested.at tag.toNat)
        match ← understood (nestedAnswer stmt) with
        | .null => .ok (Val.inst (valsOf fs v))
        | .prop x => do
          let (t, v') ← getProp P f args c x (Val.inst (valsOf fs v))
          let v' ← performAt P ρ act n t path v'
          setProp c x v' (Val.inst (valsOf fs v))
        | .propIfState x => do
          let (t, v') ← getProp P f args c x (Val.inst (valsOf fs v))
          if t.isState then
            let v' ← performAt P ρ act n t path v'
            setProp c x v' (Val.inst (valsOf fs v))
          else .ok (Val.inst (valsOf fs v))) = (fs.csBelow ρ act tag path v).map fun v => Val.inst (valsOf fs v) := by
      cases hf : fieldAt fs tag.toNat with
      | none =>
        obtain ⟨stmt, h1, h2⟩ := Option.bind_eq_some_iff.1 (hs.serves.unknown _ hf).2.1
        rw [below_unknown ρ act path v hf]
        simp only [h1, h2, understood, bind, Except.bind, Except.map]
      | some r =>
        obtain ⟨i, attrs, t⟩ := r
        obtain ⟨type, name, hp, _, _, ha, _, _⟩ := hs.serves.known _ _ _ _ hf
        obtain ⟨stmt, h1, h2⟩ := Option.bind_eq_some_iff.1 ha
        obtain ⟨tag', hnth, htag⟩ := nth_of_fieldAt hf
        obtain ⟨type', name', τ', hp', hrt, hrun⟩ := runs_field hr hnth
        rw [hp] at hp'; cases hp'
        have hi := propIndex_get hs.names hp
        obtain ⟨x, hx, hbel⟩ := below_known ρ act path v hf
        have hget : getProp P f args c name (.inst (valsOf fs v)) = .ok (τ', valOf t x) := by
          simp [getProp, hi, hp, hrt, hx, understood, bind, Except.bind]
        have hset : (fs.csBelow ρ act tag path v).map (fun v => Val.inst (valsOf fs v)) =
            ((fs.csBelow ρ act tag path v).map (valsOf fs)).map Val.inst := by
          cases fs.csBelow ρ act tag path v <;> rfl
        rw [hset, hbel]
        simp only [h1, h2, understood, bind, Except.bind]
        have hrec : primitive t = false → performAt P ρ act n τ' path (valOf t x) = (t.csAt ρ act path x).map (valOf t) := fun hprim =>
          hb i tag' attrs t hnth hprim k τ' n path x (by omega) hrun (Nat.le_trans (nth_depth hnth) hn)
        by_cases hprim : primitive t = true
        · have hst : t.isCsState = false := by rw [primitive_state, hprim]; rfl
          by_cases hpar : attrs.param = true
          · simp only [hpar, if_true, hget, hrun.state, hst, Bool.false_eq_true, if_false, Except.map]
          · simp only [hpar, hprim, hst, if_true, if_false, Bool.false_eq_true, Except.map]
        · have hprim : primitive t = false := by simpa using hprim
          have hst : t.isCsState = true := by rw [primitive_state, hprim]; rfl
          by_cases hpar : attrs.param = true
          · simp only [hpar, if_true, hget, hrun.state, hst, hrec hprim]
            cases t.csAt ρ act path x with
            | error e => rfl
            | ok y => simp [setProp, hi, understood, bind, Except.bind, Except.map]
          · simp only [hpar, hprim, hget, hst, hrec hprim, if_true, if_false, Bool.false_eq_true]
            cases t.csAt ρ act path x with
            | error e => rfl
            | ok y => simp [setProp, hi, understood, bind, Except.bind, Except.map]
    match τ, ht with
    | .message _ _, ht | .variant _ _ _, ht =>
      simp only [ht, understood, bind, Except.bind, hs.serves.isEnum, Bool.false_eq_true, if_false] at key ⊢
      exact key

theorem at_variant {P : Project} {ρ : Bytes → Str} {k : Nat} {x : Text} {f : CsFile} {args : List Rt} {names : List (Nat × Text)} {n : Nat} {act : CsAct}
    {fs : Fields} {tag : U32} {v : Text} {c : Class} (hx : P.find x args.length = some f) (he : ServesEnum (stateText P f args) f.outer names)
    (hv : names.lookup tag.toNat = some v) (hrt : readType P f args v = some (.variant x args v)) (hc : P.classOf (.variant x args v) = some (f, args, c))
    (hs : Served P f args c fs) (hr : RunsFields P k f args c.props fs) (hb : AllFields (AtTy P ρ act) fs)
    (hn : depthFields fs ≤ n) (tag' : U32) (path : List U32) (hl : act.size + path.length < k) (y : fs.Cs) :
    performAt P ρ act (n + 2) (.message x args) (tag' :: path) (.enum tag (.inst (valsOf fs y))) =
      (if tag' = tag then descend (fs.csPerform ρ act) (fun k path v => fs.csBelow ρ act k path v) path y else .ok y).map
        fun y => .enum tag (.inst (valsOf fs y)) := by
  unfold performAt
  simp only [Project.classOf, hx, Option.map_some, understood, bind, Except.bind, he.isEnum, if_true]
  split
  · obtain ⟨_, hnew, _⟩ := he.known _ _ hv
    obtain ⟨stmt, h1, h2⟩ := Option.bind_eq_some_iff.1 hnew
    simp only [h1, h2, hrt, at_class hc hs hr hb hn path hl y]
    cases descend (fs.csPerform ρ act) (fun k path v => fs.csBelow ρ act k path v) path y <;> rfl
  · rfl

theorem at_variants {P : Project} {ρ : Bytes → Str} {k : Nat} {x : Text} {f : CsFile} {args : List Rt} {names : List (Nat × Text)} {n : Nat} {act : CsAct}
    (hx : P.find x args.length = some f) (he : ServesEnum (stateText P f args) f.outer names) :
    ∀ {vs : Variants}, RunsVariants P k x f args names vs → AllVariants (AtTy P ρ act) vs → depthVariants vs ≤ n →
    ∀ (tag : U32) (path : List U32), act.size + path.length + 1 < k → ∀ (y : vs.Cs),
    performAt P ρ act (n + 2) (.message x args) (tag :: path) (variantOf vs y) = (vs.csBelow ρ act tag path y).map (variantOf vs)
  | .nil, _, _, _, _, _, _, y => y.elim
  | .cons tag' _ fs vs, hr, hb, hn, tag, path, hl, y => by
    simp only [RunsVariants] at hr
    simp only [depthVariants] at hn
    obtain ⟨⟨v, c, hv, ht, hc, hs, hf⟩, hrs⟩ := hr
    cases y with
    | inl y =>
      simp only [variantOf, Variants.csBelow, bind, Except.bind]
      rw [at_variant hx he hv ht hc hs hf hb.1 (by omega) tag path (by omega) y]
      split
      · cases descend (fs.csPerform ρ act) (fun k path v => fs.csBelow ρ act k path v) path y <;> rfl
      · rfl
    | inr y =>
      simp only [variantOf, Variants.csBelow, bind, Except.bind]
      rw [at_variants hx he hrs hb.2 (by omega) tag path hl y]
      cases vs.csBelow ρ act tag path y <;> rfl

theorem at_nil {P : Project} {ρ : Bytes → Str} {act : CsAct} {t : Ty} (h : ∀ k τ n tag path (v : t.Cs), act.size + path.length + 2 < k →
    Runs P k t τ → depth t ≤ n → performAt P ρ act n τ (tag :: path) (valOf t v) = (t.csBelow ρ act tag path v).map (valOf t)) : AtTy P ρ act t :=
  fun hp k τ n path v hl hr hn => by
    cases path with
    | nil =>
      unfold performAt
      exact performs ρ hp act v (by simpa using hl) hr hn
    | cons tag path => exact h k τ n tag path v (by simp only [List.length_cons] at hl; omega) hr hn

mutual
theorem atTy (P : Project) (ρ : Bytes → Str) (act : CsAct) : (t : Ty) → AtTy P ρ act t
  | .uint _ => fun h => by cases h
  | .sint _ => fun h => by cases h
  | .bool => fun h => by cases h
  | .string => fun h => by cases h
  | .bytes => at_nil fun k τ n tag path v hl h hn => by
    simp only [Runs] at h; subst h
    simp only [depth] at hn; obtain ⟨n, rfl, _⟩ := pred hn
    rfl
  | .vec t => at_nil fun k τ n tag path v hl h hn => by
    simp only [Runs] at h; obtain ⟨a, rfl, h⟩ := h
    simp only [depth] at hn; obtain ⟨n, rfl, hd⟩ := pred hn
    unfold performAt
    simp only
    rw [if_neg (by decide), if_neg (by decide)]
    rfl
  | .array _ t => at_nil fun k τ n tag path v hl h hn => by
    simp only [Runs] at h; obtain ⟨a, rfl, h⟩ := h
    simp only [depth] at hn; obtain ⟨n, rfl, hd⟩ := pred hn
    unfold performAt
    simp only
    rw [if_neg (by decide), if_neg (by decide)]
    rfl
  | .tuple _ => fun _ k τ n path v _ h _ => by simp only [Runs] at h
  | .option t => at_nil fun k τ n tag path v hl h hn => by
    simp only [Runs] at h; obtain ⟨a, rfl, h⟩ := h
    simp only [depth] at hn; obtain ⟨n, rfl, hd⟩ := pred hn
    unfold performAt
    simp only
    rw [if_neg (by decide), if_neg (by decide)]
    rfl
  | .box t => fun hp k τ n path v hl h hn => by
    simp only [Runs] at h; simp only [depth] at hn
    have := atTy P ρ act t hp k τ n path v hl h hn
    cases path <;> simpa only [valOf, Ty.csAt, descend, Ty.csPerform, Ty.csBelow] using this
  | .hashMap _ _ => fun _ k τ n path v _ h _ => by simp only [Runs] at h
  | .list t => at_nil fun k τ n tag path v hl h hn => by
    simp only [Runs] at h; obtain ⟨a, rfl, h⟩ := h
    simp only [depth] at hn; obtain ⟨n, rfl, hd⟩ := pred hn
    unfold performAt
    simp only [valOf, Ty.csBelow, h.state, List.getElem?_map]
    rw [if_pos trivial]
    split
    · rename_i hst
      have hprim : primitive t = false := by rw [primitive_state] at hst; simpa using hst
      cases v[tag.toNat]? with
      | none => rfl
      | some y =>
        have := atTy P ρ act t hprim (k - 1) a n path y (by omega) h hd
        simp only [Option.map_some, this, bind, Except.bind]
        rw [csAt_eq]
        cases t.csAt ρ act path y with
        | error e => rfl
        | ok z => simp [Except.map, valOf]
    · rfl
  | .map _ t => at_nil fun k τ n tag path v hl h hn => by
    simp only [Runs] at h; obtain ⟨a, rfl, h⟩ := h
    simp only [depth] at hn; obtain ⟨n, rfl, hd⟩ := pred hn
    unfold performAt
    simp only [valOf, Ty.csBelow, h.state, lookup_vals]
    rw [if_neg (by decide), if_pos trivial]
    split
    · rename_i hst
      have hprim : primitive t = false := by rw [primitive_state] at hst; simpa using hst
      cases v.lookup tag with
      | none => rfl
      | some y =>
        have := atTy P ρ act t hprim (k - 1) a n path y (by omega) h hd
        simp only [Option.map_some, this, bind, Except.bind]
        rw [csAt_eq]
        cases t.csAt ρ act path y with
        | error e => rfl
        | ok z => simp only [Except.map, valOf, dictPut_map]
    · rfl
  | .struct _ _ fs => fun _ k τ n path v hl h hn => by
    simp only [Runs] at h; obtain ⟨x, args, rfl, h⟩ := h
    obtain ⟨f, hf, hs, hr⟩ := h (by omega)
    simp only [depth] at hn; obtain ⟨n, rfl, hd⟩ := pred hn
    have := at_class (τ := .message x args) (by simp [Project.classOf, hf]) hs hr (atFields P ρ act fs) hd path (by omega) v
    simp only [valOf, this]
    cases path <;> rfl
  | .enum a b fs vs => at_nil fun k τ n tag path v hl h hn => by
    simp only [Runs] at h; obtain ⟨x, args, rfl, h⟩ := h
    obtain ⟨f, names, hf, he, hk, ⟨w, c, hv, ht, hc, hs, hrf⟩, hr⟩ := h (by omega)
    simp only [depth] at hn
    obtain ⟨n, rfl⟩ : ∃ m, n = m + 2 := ⟨n - 2, by omega⟩
    cases v with
    | inl y =>
      simp only [valOf, Ty.csBelow, bind, Except.bind]
      rw [at_variant (tag := 0#32) hf he hv ht hc hs hrf (atFields P ρ act fs) (by omega) tag path (by omega) y]
      split
      · cases descend (fs.csPerform ρ act) (fun k path v => fs.csBelow ρ act k path v) path y <;> rfl
      · rfl
    | inr y =>
      simp only [valOf, Ty.csBelow, bind, Except.bind]
      rw [at_variants hf he hr (atVariants P ρ act vs) (by omega) tag path (by omega) y]
      cases vs.csBelow ρ act tag path y <;> rfl

theorem atFields (P : Project) (ρ : Bytes → Str) (act : CsAct) : (fs : Fields) → AllFields (AtTy P ρ act) fs
  | .nil => fun i tag attrs t h => nomatch h
  | .cons _ _ t fs => fun i tag attrs u h => by
    cases i with
    | zero => simp only [nth, Option.some.injEq] at h; cases h; exact atTy P ρ act t
    | succ i => exact atFields P ρ act fs i tag attrs u h

theorem atVariants (P : Project) (ρ : Bytes → Str) (act : CsAct) : (vs : Variants) → AllVariants (AtTy P ρ act) vs
  | .nil => trivial
  | .cons _ _ fs vs => ⟨atFields P ρ act fs, atVariants P ρ act vs⟩
end

end Steit.Gen
