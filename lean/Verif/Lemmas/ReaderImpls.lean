import Verif.Lemmas.Reader

/-! # Every `merge` reads from a source what it reads from the bytes it delivers -/

namespace Steit
open Spec

section
variable {ρ : Type} {R : Source ρ} {rem : ρ → Bytes}

theorem mergeNested_agrees {α : Type} {d : Dict α} {r : Merging α} (hr : ReadsLike r d.merge) (hR : Delivers R rem) (env : Env)
    (m : Mode) (v : α) (wt : WireType) (rd : Rdr ρ) (hl : (rd.left rem).length ≤ env.fuel) :
    Alike R rem Bare rd (mergeNestedR d.wire r R env m v wt rd) (d.mergeNested m v wt (rd.left rem)) := by
  unfold mergeNestedR Dict.mergeNested
  by_cases hw : wt ≠ d.wire
  · rw [if_pos hw, if_pos hw]
    have h := skipField_agrees hR env m wt rd hl
    cases hp : skipField m wt (rd.left rem) with
    | error e =>
      rw [hp] at h
      rcases h with h | h
      · exact .inl h
      · exact .inr (by rw [h])
    | ok rest =>
      rw [hp] at h
      obtain ⟨rd', h1, h2⟩ := h
      exact ⟨rd', by rw [h1], h2⟩
  · rw [if_neg hw, if_neg hw]
    cases wt with
    | varint => exact hr R rem hR env m v rd hl
    | sized =>
      exact withNested_agrees hR env m v rd hl _ _ fun child hc _ =>
        hr R.rdr.take _ (delivers_take (delivers_rdr hR)) env m v child hc

theorem deserializeNested_agrees {α : Type} {d : Dict α} {r : Merging α} (hr : ReadsLike r d.merge) (hR : Delivers R rem) (env : Env)
    (m : Mode) (wt : WireType) (rd : Rdr ρ) (hl : (rd.left rem).length ≤ env.fuel) :
    AlikeE R rem Bare rd (deserializeNestedR d.wire d.dflt r R env m wt rd) (d.deserializeNested m wt (rd.left rem)) := by
  have h := mergeNested_agrees hr hR env m d.dflt wt rd hl
  unfold deserializeNestedR Dict.deserializeNested
  cases hp : d.mergeNested m d.dflt wt (rd.left rem) with
  | err v e =>
    rw [hp] at h
    rcases h with h | h
    · exact .inl h
    · exact .inr (by rw [h])
  | ok v rest =>
    rw [hp] at h
    obtain ⟨rd', h1, h2⟩ := h
    exact ⟨rd', by rw [h1], h2⟩

theorem prim_agrees {α : Type} {get : Rdr ρ → Except IoErr (α × Rdr ρ)} {p : Bytes → Except Err (α × Bytes)} (v : α) (rd : Rdr ρ)
    (h : AlikeE R rem Bare rd (get rd) (p (rd.left rem))) :
    Alike R rem Bare rd (primR get v rd)
      (match p (rd.left rem) with | .ok (v', rest) => Res.ok v' rest | .error e => Res.err v e) := by
  unfold primR
  cases hp : p (rd.left rem) with
  | error e =>
    rw [hp] at h
    rcases h with h | h
    · exact .inl h
    · exact .inr (by rw [h])
  | ok x =>
    rw [hp] at h
    obtain ⟨rd', h1, h2⟩ := h
    exact ⟨rd', by rw [h1], h2⟩

/-- `while !reader.eof()?` over steps that agree. -/
theorem loop_agrees {α : Type} (hR : Delivers R rem) (env : Env) (stepR : α → Rdr ρ → RRes ρ α) (step : α → Bytes → Res α)
    (hstep : ∀ v rd, (rd.left rem).length ≤ env.fuel → Alike R rem Bare rd (stepR v rd) (step v (rd.left rem))) (v : α) (rd : Rdr ρ)
    (hl : (rd.left rem).length ≤ env.fuel) :
    Alike R rem Bare rd (R.untilEof stepR env.fuel v rd) (untilEof step (rd.left rem).length v (rd.left rem)) :=
  untilEof_agrees hR env.fuel stepR step (fun v rd h _ => hstep v rd h) env.fuel _ v rd hl hl

theorem vecStep_agrees {α : Type} {d : Dict α} {r : Merging α} (hr : ReadsLike r d.merge) (hR : Delivers R rem) (env : Env)
    (m : Mode) (xs : List α) (rd : Rdr ρ) (hl : (rd.left rem).length ≤ env.fuel) :
    Alike R rem Bare rd (vecStepR d r R env m xs rd) (vecStep d m xs (rd.left rem)) := by
  have h := deserializeNested_agrees hr hR env m d.wire rd hl
  unfold vecStepR vecStep
  cases hp : d.deserializeNested m d.wire (rd.left rem) with
  | error e =>
    rw [hp] at h
    rcases h with h | h
    · exact .inl h
    · exact .inr (by rw [h])
  | ok x =>
    rw [hp] at h
    obtain ⟨rd', h1, h2⟩ := h
    exact ⟨rd', by rw [h1], h2⟩

theorem arrayLoop_agrees {α : Type} {d : Dict α} {r : Merging α} (hr : ReadsLike r d.merge) (hR : Delivers R rem) (env : Env)
    (m : Mode) : ∀ (todo done : List α) (rd : Rdr ρ), (rd.left rem).length ≤ env.fuel →
    Alike R rem (fun _ => True) rd (arrayLoopR d r R env m done todo rd) (arrayLoop d m done todo (rd.left rem)) := by
  intro todo
  induction todo with
  | nil =>
    intro done rd hl
    rw [arrayLoopR, arrayLoop]
    exact ⟨rd, rfl, ⟨_, .refl rd⟩, rfl, trivial⟩
  | cons t todo ih =>
    intro done rd hl
    obtain ⟨rd1, h1, h2, h3, h4⟩ := eof_spec hR rd
    rw [arrayLoopR, h1]
    cases hb : rd.left rem with
    | nil =>
      rw [arrayLoop]
      exact ⟨rd1, rfl, h2, by rw [h3, hb], trivial⟩
    | cons b bs =>
      rw [arrayLoop]
      simp only [List.isEmpty_cons]
      have hl1 : (rd1.left rem).length ≤ env.fuel := by rw [h3]; exact hl
      have h := deserializeNested_agrees hr hR env m d.wire rd1 hl1
      rw [h3, hb] at h
      cases hp : d.deserializeNested m d.wire (b :: bs) with
      | error e =>
        rw [hp] at h
        rcases h with h | h
        · exact .inl h
        · exact .inr (by rw [h])
      | ok x =>
        rw [hp] at h
        obtain ⟨rd2, h5, h6, h7, h8⟩ := h
        rw [h5]
        simp only
        have := ih (done ++ [x.1]) rd2 (Nat.le_trans (rem_le hR h6) hl1)
        rw [h7] at this
        refine (this.map _).after ?_
        obtain ⟨u1, h2⟩ := h2
        obtain ⟨u2, h6⟩ := h6
        exact ⟨_, h2.trans h6⟩

theorem optionStep_agrees {α : Type} {d : Dict α} {r : Merging α} (hr : ReadsLike r d.merge) (hR : Delivers R rem) (env : Env)
    (m : Mode) (o : Option α) (rd : Rdr ρ) (hl : (rd.left rem).length ≤ env.fuel) :
    Alike R rem Bare rd (optionStepR d r R env m o rd) (optionStep d m o (rd.left rem)) :=
  (mergeNested_agrees hr hR env m _ d.wire rd hl).map some

theorem hashMapStep_agrees {κ ν : Type} (eq : κ → κ → Bool) {dk : Dict κ} {rk : Merging κ} {dv : Dict ν} {rv : Merging ν}
    (hk : ReadsLike rk dk.merge) (hv : ReadsLike rv dv.merge) (hR : Delivers R rem) (env : Env) (m : Mode) (es : List (κ × ν)) (rd : Rdr ρ)
    (hl : (rd.left rem).length ≤ env.fuel) :
    Alike R rem Bare rd (hashMapStepR eq dk rk dv rv R env m es rd) (hashMapStep eq dk dv m es (rd.left rem)) := by
  have h := deserializeNested_agrees hk hR env m dk.wire rd hl
  unfold hashMapStepR hashMapStep
  cases hp : dk.deserializeNested m dk.wire (rd.left rem) with
  | error e =>
    rw [hp] at h
    rcases h with h | h
    · exact .inl h
    · exact .inr (by rw [h])
  | ok x =>
    rw [hp] at h
    obtain ⟨rd1, h1, h2, h3, h4⟩ := h
    rw [h1]
    simp only
    have h := deserializeNested_agrees hv hR env m dv.wire rd1 (Nat.le_trans (rem_le hR h2) hl)
    rw [h3] at h
    have h := h.after h2
    cases hp : dv.deserializeNested m dv.wire x.2 with
    | error e =>
      rw [hp] at h
      rcases h with h | h
      · exact .inl h
      · exact .inr (by rw [h])
    | ok y =>
      rw [hp] at h
      obtain ⟨rd', h5, h6⟩ := h
      exact ⟨rd', by rw [h5], h6⟩

theorem listStep_agrees {α : Type} {d : Dict α} {r : Merging α} (hr : ReadsLike r d.merge) (hR : Delivers R rem) (env : Env)
    (m : Mode) (l : ListV α) (rd : Rdr ρ) (hl : (rd.left rem).length ≤ env.fuel) :
    Alike R rem Bare rd (listStepR d r R env m l rd) (listStep d m l (rd.left rem)) := by
  have h := mergeNested_agrees hr hR env m (d.withRuntime (l.rt.nested (fieldNo l.items.length))) d.wire rd hl
  unfold listStepR listStep
  simp only
  cases hp : d.mergeNested m (d.withRuntime (l.rt.nested (fieldNo l.items.length))) d.wire (rd.left rem) with
  | err v e =>
    rw [hp] at h
    rcases h with h | h
    · exact .inl h
    · exact .inr (by rw [h])
  | ok v rest =>
    rw [hp] at h
    obtain ⟨rd', h1, h2⟩ := h
    exact ⟨rd', by rw [h1], h2⟩

theorem mapStep_agrees {α : Type} (kt : KeyTy) {d : Dict α} {r : Merging α} (hr : ReadsLike r d.merge) (hR : Delivers R rem) (env : Env)
    (m : Mode) (v : MapV α) (rd : Rdr ρ) (hl : (rd.left rem).length ≤ env.fuel) :
    Alike R rem Bare rd (mapStepR kt d r R env m v rd) (mapStep kt d m v (rd.left rem)) := by
  have h := readMapKey_agrees hR env m kt rd hl
  unfold mapStepR mapStep
  cases hp : readMapKey m kt (rd.left rem) with
  | error e =>
    rw [hp] at h
    rcases h with h | h
    · exact .inl h
    · exact .inr (by rw [h])
  | ok x =>
    rw [hp] at h
    obtain ⟨rd1, h1, h2, h3, h4⟩ := h
    rw [h1]
    simp only
    have hl1 := Nat.le_trans (rem_le hR h2) hl
    cases entriesGet x.1 v.entries with
    | some y =>
      have h := (mergeNested_agrees hr hR env m y d.wire rd1 hl1)
      rw [h3] at h
      exact (h.after h2).map _
    | none =>
      have h := (mergeNested_agrees hr hR env m (d.withRuntime (v.rt.nested x.1)) d.wire rd1 hl1).after h2
      rw [h3] at h
      simp only
      cases hp : d.mergeNested m (d.withRuntime (v.rt.nested x.1)) d.wire x.2 with
      | err v e =>
        rw [hp] at h
        rcases h with h | h
        · exact .inl h
        · exact .inr (by rw [h])
      | ok v rest =>
        rw [hp] at h
        obtain ⟨rd', h5, h6⟩ := h
        exact ⟨rd', by rw [h5], h6⟩

end

/-- The arms for the fields agree. -/
def FieldsReadAs {β : Type} (fs : FieldR β) (d : FieldsD β) : Prop :=
  ∀ {ρ : Type} (R : Source ρ) (rem : ρ → Bytes), Delivers R rem → ∀ (env : Env) (m : Mode) (n : U32) (wt : WireType) (v : β) (rd : Rdr ρ),
    (rd.left rem).length ≤ env.fuel →
    match d.mergeField m n wt v (rd.left rem) with
    | none => fs _ R env m n wt v rd = none
    | some p => ∃ r, fs _ R env m n wt v rd = some r ∧ Alike R rem Bare rd r p

theorem fieldsMerge_readsAs {β : Type} {fs : FieldR β} {d : FieldsD β} (h : FieldsReadAs fs d) : ReadsLike (fieldsMergeR fs) d.merge := by
  intro ρ R rem hR env m v rd hl
  refine loop_agrees hR env _ _ (fun v rd hl => ?_) v rd hl
  have ht := readTag_agrees hR env m rd hl
  unfold mergeStepR FieldsD.mergeStep
  cases hp : readTag m (rd.left rem) with
  | error e =>
    rw [hp] at ht
    rcases ht with ht | ht
    · exact .inl ht
    · exact .inr (by rw [ht])
  | ok x =>
    rw [hp] at ht
    obtain ⟨rd1, h1, h2, h3, h4⟩ := ht
    rw [h1]
    simp only
    have hl1 := Nat.le_trans (rem_le hR h2) hl
    have hf := h R rem hR env m x.1.1 x.1.2 v rd1 hl1
    rw [h3] at hf
    cases hp : d.mergeField m x.1.1 x.1.2 v x.2 with
    | some p =>
      rw [hp] at hf
      obtain ⟨r, h5, h6⟩ := hf
      rw [h5]
      exact h6.after h2
    | none =>
      rw [hp] at hf
      rw [hf]
      have hs := skipField_agrees hR env m x.1.2 rd1 hl1
      rw [h3] at hs
      simp only
      cases hp : skipField m x.1.2 x.2 with
      | error e =>
        rw [hp] at hs
        rcases hs with hs | hs
        · exact .inl hs
        · exact .inr (by rw [hs])
      | ok rest =>
        rw [hp] at hs
        obtain ⟨rd', h5, ⟨u', h6⟩, h7⟩ := hs
        obtain ⟨u, h2⟩ := h2
        exact ⟨rd', by rw [h5], ⟨_, h2.trans h6⟩, h7⟩

theorem enum_readsAs {γ : Type} (ds : Bool) (vs : VariantsD γ) {r : Merging γ} (h : ReadsLike r vs.mergeFields) :
    ReadsLike (enumR ds vs r) (enumMerge ds vs) := by
  intro ρ R rem hR env m v rd hl
  have ht := getVarint_agrees hR env m 32 rd hl
  unfold enumR enumMerge
  cases hp : getVarint m 32 (rd.left rem) with
  | error e =>
    rw [hp] at ht
    rcases ht with ht | ht
    · exact .inl ht
    · exact .inr (by rw [ht])
  | ok x =>
    rw [hp] at ht
    obtain ⟨rd1, h1, h2, h3, h4⟩ := ht
    rw [h1]
    simp only
    have hl1 := Nat.le_trans (rem_le hR h2) hl
    have hm : ∀ val, Alike R rem Bare rd (r _ R env m val rd1) (vs.mergeFields m val x.2) := by
      intro val
      have := h R rem hR env m val rd1 hl1
      rw [h3] at this
      exact this.after h2
    by_cases hc : x.1 = vs.tagOf v.val
    · rw [if_pos hc, if_pos hc]
      exact (hm v.val).map _
    · rw [if_neg hc, if_neg hc]
      cases ds with
      | true =>
        simp only [if_true]
        cases v.rt.parent with
        | error e =>
          simp only
          cases vs.ctor x.1 none with
          | none => exact .inr rfl
          | some _ => exact .inr rfl
        | ok parent =>
          simp only
          cases vs.ctor x.1 (some (parent.nested x.1)) with
          | none => exact .inr rfl
          | some val => exact (hm val).map _
      | false =>
        simp only [Bool.false_eq_true, if_false]
        cases vs.ctor x.1 none with
        | none => exact .inr rfl
        | some val => exact (hm val).map _

/-- The components of a tuple agree. -/
def TupleReadsAs {α : Type} (t : TupleR α) (d : TupleD α) : Prop :=
  ∀ {ρ : Type} (R : Source ρ) (rem : ρ → Bytes), Delivers R rem → ∀ (env : Env) (m : Mode) (rd : Rdr ρ),
    (rd.left rem).length ≤ env.fuel → AlikeE R rem (fun _ => True) rd (t _ R env m rd) (d.read m (rd.left rem))

mutual
/-- Every type. -/
theorem readsAs : (t : Ty) → ReadsLike t.mergeR t.dict.merge
  | .uint w => fun R _ hR env m v rd hl => by
    simp only [Ty.mergeR]
    exact prim_agrees v rd (getVarint_agrees hR env m w.bits rd hl)
  | .sint w => fun R _ hR env m v rd hl => by
    simp only [Ty.mergeR]
    exact prim_agrees v rd (getSigned_agrees hR env m w.bits rd hl)
  | .bool => fun R _ hR env m v rd hl => by
    simp only [Ty.mergeR]
    exact prim_agrees v rd (getBoolLoop_agrees hR env.fuel rd false hl)
  | .string => fun R rem hR env m v rd hl => by
    obtain ⟨rd', h1, h2, h3, h4⟩ := drain_spec hR env rd hl
    simp only [Ty.mergeR]
    simp only [stringR, h1, Ty.dict, stringDict, plainDict]
    by_cases hu : utf8Valid (rd.left rem) = true
    · rw [dif_pos hu, dif_pos hu]
      exact ⟨rd', rfl, h2, h3, h4⟩
    · rw [dif_neg hu, dif_neg hu]
      exact .inr rfl
  | .bytes => fun R rem hR env m v rd hl => by
    obtain ⟨rd', h1, h2, h3, h4⟩ := drain_spec hR env rd hl
    simp only [Ty.mergeR]
    simp only [bytesR, h1, Ty.dict, bytesDict, plainDict]
    exact ⟨rd', rfl, h2, h3, h4⟩
  | .vec t => fun R rem hR env m v rd hl => by
    simp only [Ty.mergeR]
    exact loop_agrees hR env _ _ (fun v rd hl => vecStep_agrees (readsAs t) hR env m v rd hl) v rd hl
  | .array n t => fun R rem hR env m v rd hl => by
    simp only [Ty.mergeR]
    have h := (arrayLoop_agrees (readsAs t) hR env m v.1 [] rd hl).map
      (fun ys => (⟨ys.1, by have := ys.2; have := v.2; simp_all⟩ : ArrayV t.El n))
    simp only [arrayR, Ty.dict, arrayDict, plainDict]
    cases hp : (arrayLoop t.dict m [] v.1 (rd.left rem)).map
        (fun ys => (⟨ys.1, by have := ys.2; have := v.2; simp_all⟩ : ArrayV t.El n)) with
    | err v e =>
      rw [hp] at h
      rcases h with h | h
      · exact .inl h
      · exact .inr (by rw [h])
    | ok v rest =>
      rw [hp] at h
      obtain ⟨rd1, h1, h2, h3, _⟩ := h
      obtain ⟨rd', h5, h6, h7, h8⟩ := drain_spec hR env rd1 (Nat.le_trans (rem_le hR h2) hl)
      rw [h1]
      simp only [h5]
      obtain ⟨u, h2⟩ := h2
      obtain ⟨u', h6⟩ := h6
      exact ⟨rd', rfl, ⟨_, h2.trans h6⟩, h7, h8⟩
  | .tuple ts => fun R rem hR env m v rd hl => by
    simp only [Ty.mergeR]
    have h := tupleReadsAs ts R rem hR env m rd hl
    simp only [tupleR, Ty.dict, tupleDict, plainDict]
    cases hp : ts.dict.read m (rd.left rem) with
    | error e =>
      rw [hp] at h
      rcases h with h | h
      · exact .inl h
      · exact .inr (by rw [h])
    | ok x =>
      rw [hp] at h
      obtain ⟨rd1, h1, h2, h3, _⟩ := h
      obtain ⟨rd', h5, h6, h7, h8⟩ := drain_spec hR env rd1 (Nat.le_trans (rem_le hR h2) hl)
      rw [h1]
      simp only [h5]
      obtain ⟨u, h2⟩ := h2
      obtain ⟨u', h6⟩ := h6
      exact ⟨rd', rfl, ⟨_, h2.trans h6⟩, h7, h8⟩
  | .option t => fun R rem hR env m v rd hl => by
    simp only [Ty.mergeR]
    exact loop_agrees hR env _ _ (fun v rd hl => optionStep_agrees (readsAs t) hR env m v rd hl) v rd hl
  | .box t => fun R rem hR env m v rd hl => by
    simp only [Ty.mergeR]
    exact readsAs t R rem hR env m v rd hl
  | .hashMap k v => fun R rem hR env m x rd hl => by
    simp only [Ty.mergeR]
    exact loop_agrees hR env _ _
      (fun x rd hl => hashMapStep_agrees k.eq (readsAs k) (readsAs v) hR env m x rd hl) x rd hl
  | .list t => fun R rem hR env m v rd hl => by
    simp only [Ty.mergeR]
    exact loop_agrees hR env _ _ (fun v rd hl => listStep_agrees (readsAs t) hR env m v rd hl) v rd hl
  | .map k t => fun R rem hR env m v rd hl => by
    simp only [Ty.mergeR]
    exact loop_agrees hR env _ _ (fun v rd hl => mapStep_agrees k (readsAs t) hR env m v rd hl) v rd hl
  | .struct ds cached fs => fun R rem hR env m v rd hl => by
    simp only [Ty.mergeR]
    have h := (fieldsMerge_readsAs (fieldsReadAs fs ds) R rem hR env m v.fields rd hl).map
      (fun fields => ({ v with fields } : StructV fs.El))
    cases ds <;> exact h
  | .enum ds cached fs vs => fun R rem hR env m v rd hl => by
    simp only [Ty.mergeR]
    have h := enum_readsAs ds (variantsCons 0#32 cached (fs.dict ds) (vs.dict ds)) (r := variantsConsR fs.fieldR vs.mergeR) (by
      intro ρ R rem hR env m v rd hl
      cases v with
      | inl v => exact (fieldsMerge_readsAs (fieldsReadAs fs ds) R rem hR env m v rd hl).map _
      | inr v => exact (variantsReadAs vs ds R rem hR env m v rd hl).map _) R rem hR env m v rd hl
    cases ds <;> exact h

/-- Every tuple. -/
theorem tupleReadsAs : (ts : Tys) → TupleReadsAs ts.readR ts.dict
  | .nil => fun R rem hR env m rd hl => by
    rw [Tys.readR, Tys.dict]
    exact ⟨rd, rfl, ⟨_, .refl rd⟩, rfl, trivial⟩
  | .cons t ts => fun R rem hR env m rd hl => by
    rw [Tys.readR, Tys.dict]
    have h := deserializeNested_agrees (readsAs t) hR env m t.dict.wire rd hl
    simp only [tupleConsR, tupleCons]
    cases hp : t.dict.deserializeNested m t.dict.wire (rd.left rem) with
    | error e =>
      rw [hp] at h
      rcases h with h | h
      · exact .inl h
      · exact .inr (by rw [h])
    | ok x =>
      rw [hp] at h
      obtain ⟨rd1, h1, h2, h3, h4⟩ := h
      rw [h1]
      simp only
      have h := (tupleReadsAs ts R rem hR env m rd1 (Nat.le_trans (rem_le hR h2) hl)).after h2
      rw [h3] at h
      cases hp : ts.dict.read m x.2 with
      | error e =>
        rw [hp] at h
        rcases h with h | h
        · exact .inl h
        · exact .inr (by rw [h])
      | ok y =>
        rw [hp] at h
        obtain ⟨rd', h5, h6⟩ := h
        exact ⟨rd', by rw [h5], h6⟩

/-- All fields of a struct or variant. -/
theorem fieldsReadAs : (fs : Fields) → (ds : Bool) → FieldsReadAs fs.fieldR (fs.dict ds)
  | .nil, _ => fun R rem hR env m n wt v rd hl => by
    rw [Fields.fieldR]
    rfl
  | .cons tag attrs t fs, ds => fun R rem hR env m n wt v rd hl => by
    rw [Fields.fieldR, Fields.dict]
    simp only [fieldsConsR, fieldsCons]
    by_cases hn : n = tag
    · rw [if_pos hn, if_pos hn]
      exact ⟨_, rfl, (mergeNested_agrees (readsAs t) hR env m v.1 wt rd hl).map _⟩
    · rw [if_neg hn, if_neg hn]
      have h := fieldsReadAs fs ds R rem hR env m n wt v.2 rd hl
      cases hp : (fs.dict ds).mergeField m n wt v.2 (rd.left rem) with
      | none =>
        rw [hp] at h
        simp only [Option.map_none]
        rw [h]
        rfl
      | some p =>
        rw [hp] at h
        obtain ⟨r, h1, h2⟩ := h
        simp only [Option.map_some]
        rw [h1]
        exact ⟨_, rfl, h2.map _⟩

/-- All variants of an enum. -/
theorem variantsReadAs : (vs : Variants) → (ds : Bool) → ReadsLike vs.mergeR (vs.dict ds).mergeFields
  | .nil, _ => fun R rem hR env m v rd hl => nomatch v
  | .cons tag cached fs vs, ds => fun R rem hR env m v rd hl => by
    rw [Variants.mergeR, Variants.dict]
    cases v with
    | inl v => exact (fieldsMerge_readsAs (fieldsReadAs fs ds) R rem hR env m v rd hl).map _
    | inr v => exact (variantsReadAs vs ds R rem hR env m v rd hl).map _
end

end Steit

namespace Steit
open Spec

/-! ## The end of the source -/

/-- The last thing that happened to the reader was that the source said it was at its end. -/
def Ended {ρ : Type} (R : Source ρ) (rd : Rdr ρ) : Prop :=
  rd.next = none ∧ ∃ n s, 0 < n ∧ R.read n s = .ok ([], rd.raw)

section
variable {ρ : Type} {R : Source ρ}

theorem eof_ended {rd rd' : Rdr ρ} (h : R.eof rd = .ok (true, rd')) : Ended R rd' := by
  rcases rd with ⟨_ | b, s⟩
  · simp only [Source.eof] at h
    cases hr : R.read 1 s with
    | error e => rw [hr] at h; cases h
    | ok r =>
      rw [hr] at h
      rcases r with ⟨_ | ⟨b, bs⟩, s'⟩
      · cases h
        exact ⟨rfl, 1, s, by omega, hr⟩
      · cases h
  · cases h

theorem untilEof_ended {α : Type} {step : α → Rdr ρ → RRes ρ α} : ∀ (fuel : Nat) {v v' : α} {rd rd' : Rdr ρ},
    R.untilEof step fuel v rd = .ok v' rd' → Ended R rd' := by
  intro fuel
  induction fuel with
  | zero =>
    intro v v' rd rd' h
    rw [Source.untilEof] at h
    cases he : R.eof rd with
    | error e => rw [he] at h; cases h
    | ok x =>
      rw [he] at h
      rcases x with ⟨_ | _, rd1⟩
      · cases h
      · cases h
        exact eof_ended he
  | succ fuel ih =>
    intro v v' rd rd' h
    rw [Source.untilEof] at h
    cases he : R.eof rd with
    | error e => rw [he] at h; cases h
    | ok x =>
      rw [he] at h
      rcases x with ⟨_ | _, rd1⟩
      · simp only at h
        cases hs : step v rd1 with
        | err v1 e => rw [hs] at h; cases h
        | ok v1 rd2 =>
          rw [hs] at h
          exact ih h
      · cases h
        exact eof_ended he

theorem readToEnd_ended {env : Env} : ∀ (fuel i : Nat) {s s' : ρ} {acc bs : Bytes},
    R.readToEnd env fuel i s acc = .ok (bs, s') → ∃ n s0, 0 < n ∧ R.read n s0 = .ok ([], s') := by
  intro fuel
  induction fuel with
  | zero =>
    intro i s s' acc bs h
    rw [Source.readToEnd] at h
    cases hr : R.read (env.buffer i + 1) s with
    | error e => rw [hr] at h; cases h
    | ok x =>
      rw [hr] at h
      rcases x with ⟨_ | ⟨b, got⟩, s1⟩
      · cases h
        exact ⟨_, _, by omega, hr⟩
      · cases h
  | succ fuel ih =>
    intro i s s' acc bs h
    rw [Source.readToEnd] at h
    cases hr : R.read (env.buffer i + 1) s with
    | error e => rw [hr] at h; cases h
    | ok x =>
      rw [hr] at h
      rcases x with ⟨_ | ⟨b, got⟩, s1⟩
      · cases h
        exact ⟨_, _, by omega, hr⟩
      · exact ih _ h

theorem rdr_ended {n : Nat} {rd rd' : Rdr ρ} (hn : 0 < n) (h : R.rdr.read n rd = .ok ([], rd')) : Ended R rd' := by
  have h0 : n ≠ 0 := by omega
  rcases rd with ⟨_ | b, s⟩
  · simp only [Source.rdr, h0, if_false] at h
    cases hr : R.read n s with
    | error e => rw [hr] at h; cases h
    | ok r =>
      rw [hr] at h
      simp only [Except.ok.injEq, Prod.mk.injEq] at h
      obtain ⟨h1, rfl⟩ := h
      exact ⟨rfl, n, s, hn, by rw [hr, ← h1]⟩
  · simp [Source.rdr, h0] at h

theorem drain_ended {env : Env} {rd rd' : Rdr ρ} {bs : Bytes} (h : R.rdr.readToEnd env env.fuel 0 rd [] = .ok (bs, rd')) :
    Ended R rd' := by
  obtain ⟨n, s0, hn, hr⟩ := readToEnd_ended _ _ h
  exact rdr_ended hn hr

theorem map_ended {α β : Type} {f : α → β} {r : RRes ρ α} {v' : β} {rd' : Rdr ρ} (h : r.map f = .ok v' rd')
    (hr : ∀ v, r = .ok v rd' → Ended R rd') : Ended R rd' := by
  cases r with
  | ok v rd =>
    cases h
    exact hr v rfl
  | err v e => cases h

theorem fieldsMerge_ended {β : Type} {fs : FieldR β} {env : Env} {m : Mode} {v v' : β} {rd rd' : Rdr ρ}
    (h : fieldsMergeR fs ρ R env m v rd = .ok v' rd') : Ended R rd' := untilEof_ended _ h

theorem variants_ended : (vs : Variants) → ∀ {env : Env} {m : Mode} {v v' : vs.El} {rd rd' : Rdr ρ},
    vs.mergeR ρ R env m v rd = .ok v' rd' → Ended R rd'
  | .nil, _, _, v, _, _, _, _ => nomatch v
  | .cons tag cached fs vs, env, m, v, v', rd, rd', h => by
    rw [Variants.mergeR] at h
    cases v with
    | inl v => exact map_ended h fun _ h => fieldsMerge_ended h
    | inr v => exact map_ended h fun _ h => variants_ended vs h

/-- Every sized value is read until the source says that it is at its end. -/
theorem sized_ended : (t : Ty) → t.dict.wire = .sized → ∀ {env : Env} {m : Mode} {v v' : t.El} {rd rd' : Rdr ρ},
    t.mergeR ρ R env m v rd = .ok v' rd' → Ended R rd'
  | .uint w, hw, _, _, _, _, _, _, _ => by cases hw
  | .sint w, hw, _, _, _, _, _, _, _ => by cases hw
  | .bool, hw, _, _, _, _, _, _, _ => by cases hw
  | .string, _, env, m, v, v', rd, rd', h => by
    simp only [Ty.mergeR, stringR] at h
    cases hd : R.rdr.readToEnd env env.fuel 0 rd [] with
    | error e => rw [hd] at h; cases h
    | ok x =>
      rw [hd] at h
      simp only at h
      split at h
      · cases h
        exact drain_ended hd
      · cases h
  | .bytes, _, env, m, v, v', rd, rd', h => by
    simp only [Ty.mergeR, bytesR] at h
    cases hd : R.rdr.readToEnd env env.fuel 0 rd [] with
    | error e => rw [hd] at h; cases h
    | ok x =>
      rw [hd] at h
      cases h
      exact drain_ended hd
  | .vec t, _, _, _, _, _, _, _, h => by
    simp only [Ty.mergeR] at h
    exact untilEof_ended _ h
  | .array n t, _, env, m, v, v', rd, rd', h => by
    simp only [Ty.mergeR, arrayR] at h
    split at h
    · cases h
    · rename_i ys rd1 _
      cases hd : R.rdr.readToEnd env env.fuel 0 rd1 [] with
      | error e => rw [hd] at h; cases h
      | ok x =>
        rw [hd] at h
        cases h
        exact drain_ended hd
  | .tuple ts, _, env, m, v, v', rd, rd', h => by
    simp only [Ty.mergeR, tupleR] at h
    split at h
    · cases h
    · rename_i ys rd1 _
      cases hd : R.rdr.readToEnd env env.fuel 0 rd1 [] with
      | error e => rw [hd] at h; cases h
      | ok x =>
        rw [hd] at h
        cases h
        exact drain_ended hd
  | .option t, _, _, _, _, _, _, _, h => by
    simp only [Ty.mergeR] at h
    exact untilEof_ended _ h
  | .box t, hw, env, m, v, v', rd, rd', h => by
    simp only [Ty.mergeR] at h
    exact sized_ended t hw h
  | .hashMap k v, _, _, _, _, _, _, _, h => by
    simp only [Ty.mergeR] at h
    exact untilEof_ended _ h
  | .list t, _, _, _, _, _, _, _, h => by
    simp only [Ty.mergeR] at h
    exact untilEof_ended _ h
  | .map k t, _, _, _, _, _, _, _, h => by
    simp only [Ty.mergeR] at h
    exact untilEof_ended _ h
  | .struct ds cached fs, _, _, _, _, _, _, _, h => by
    simp only [Ty.mergeR] at h
    exact map_ended h fun _ h => fieldsMerge_ended h
  | .enum ds cached fs vs, _, env, m, v, v', rd, rd', h => by
    simp only [Ty.mergeR, enumR] at h
    have hv : ∀ {γ : Type} {f : fs.El ⊕ vs.El → γ} {x : fs.El ⊕ vs.El} {rd1 : Rdr ρ} {y : γ},
        (variantsConsR fs.fieldR vs.mergeR ρ R env m x rd1).map f = .ok y rd' → Ended R rd' := by
      intro γ f x rd1 y h
      refine map_ended h fun _ h => ?_
      cases x with
      | inl x => exact map_ended h fun _ h => fieldsMerge_ended h
      | inr x => exact map_ended h fun _ h => variants_ended vs h
    split at h
    · cases h
    · split at h
      · exact hv h
      · split at h
        · split at h
          · split at h <;> cases h
          · split at h
            · cases h
            · exact hv h
        · split at h
          · cases h
          · exact hv h

end

end Steit
