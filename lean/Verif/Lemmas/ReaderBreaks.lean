import Verif.Spec.Source

/-! # Reading from a source that breaks: the same as if it had not, or its error -/

namespace Steit
open Spec

/-- `r` is `r'`, or the error of the source. -/
def SameE {α : Type} (r r' : Except IoErr α) : Prop := r = r' ∨ r = .error .source

/-- The same for functions that change their target. -/
def SameR {ρ α : Type} (r r' : RRes ρ α) : Prop := r = r' ∨ ∃ v, r = .err v .source

theorem SameR.map {ρ α β : Type} {r r' : RRes ρ α} (h : SameR r r') (f : α → β) : SameR (r.map f) (r'.map f) := by
  rcases h with rfl | ⟨v, rfl⟩
  · exact .inl rfl
  · exact .inr ⟨f v, rfl⟩

section
variable {ρ : Type} {R R' : Source ρ}

theorem breaks_take (h : Breaks R R') : Breaks R.take R'.take := by
  intro n s
  by_cases h0 : s.1 = 0
  · exact .inl (by simp [Source.take, h0])
  · rcases h (min n s.1) s.2 with h1 | h1
    · exact .inl (by simp [Source.take, h0, h1])
    · exact .inr (by simp [Source.take, h0, h1])

theorem breaks_rdr (h : Breaks R R') : Breaks R.rdr R'.rdr := by
  intro n rd
  by_cases h0 : n = 0
  · exact .inl (by simp [Source.rdr, h0])
  · rcases rd with ⟨_ | b, s⟩
    · rcases h n s with h1 | h1
      · exact .inl (by simp [Source.rdr, h0, h1])
      · exact .inr (by simp [Source.rdr, h0, h1])
    · exact .inl (by simp [Source.rdr, h0])

theorem eof_same (h : Breaks R R') (rd : Rdr ρ) : SameE (R.eof rd) (R'.eof rd) := by
  rcases rd with ⟨_ | b, s⟩
  · rcases h 1 s with h1 | h1
    · exact .inl (by simp only [Source.eof, h1])
    · exact .inr (by simp only [Source.eof, h1])
  · exact .inl rfl

theorem readByte_same (h : Breaks R R') (rd : Rdr ρ) : SameE (R.readByte rd) (R'.readByte rd) := by
  rcases breaks_rdr h 1 rd with h1 | h1
  · exact .inl (by simp only [Source.readByte, h1])
  · exact .inr (by simp only [Source.readByte, h1])

theorem readToEnd_same (h : Breaks R R') (env : Env) : ∀ (fuel i : Nat) (s : ρ) (acc : Bytes),
    R.readToEnd env fuel i s acc = R'.readToEnd env fuel i s acc ∨ ∃ got, R.readToEnd env fuel i s acc = .error (.source, got) := by
  intro fuel
  induction fuel with
  | zero =>
    intro i s acc
    rcases h (env.buffer i + 1) s with h1 | h1
    · exact .inl (by simp only [Source.readToEnd, h1])
    · exact .inr ⟨acc, by simp only [Source.readToEnd, h1]⟩
  | succ fuel ih =>
    intro i s acc
    rcases h (env.buffer i + 1) s with h1 | h1
    · cases hr : R'.read (env.buffer i + 1) s with
      | error e => exact .inl (by rw [Source.readToEnd, Source.readToEnd, h1, hr])
      | ok x =>
        rcases x with ⟨_ | ⟨b, bs⟩, s'⟩
        · exact .inl (by rw [Source.readToEnd, Source.readToEnd, h1, hr])
        · rw [Source.readToEnd, Source.readToEnd, h1, hr]
          exact ih _ _ _
    · exact .inr ⟨acc, by simp only [Source.readToEnd, h1]⟩

theorem getLoop_same (h : Breaks R R') (m : Mode) {w : Nat} : ∀ (fuel : Nat) (rd : Rdr ρ) (value : BitVec w) (offset : Nat),
    SameE (R.getLoop m fuel rd value offset) (R'.getLoop m fuel rd value offset) := by
  intro fuel
  induction fuel with
  | zero =>
    intro rd value offset
    rcases readByte_same h rd with h1 | h1
    · exact .inl (by simp only [Source.getLoop, h1])
    · exact .inr (by simp only [Source.getLoop, h1])
  | succ fuel ih =>
    intro rd value offset
    rcases readByte_same h rd with h1 | h1
    · rw [Source.getLoop, Source.getLoop, h1]
      cases R'.readByte rd with
      | error e => exact .inl rfl
      | ok x =>
        simp only
        split
        · exact .inl rfl
        · split
          · exact .inl rfl
          · exact ih _ _ _
    · exact .inr (by simp only [Source.getLoop, h1])

theorem getVarint_same (h : Breaks R R') (env : Env) (m : Mode) (w : Nat) (rd : Rdr ρ) :
    SameE (R.getVarint env m w rd) (R'.getVarint env m w rd) := getLoop_same h m _ _ _ _

theorem getSigned_same (h : Breaks R R') (env : Env) (m : Mode) (w : Nat) (rd : Rdr ρ) :
    SameE (R.getSigned env m w rd) (R'.getSigned env m w rd) := by
  rcases getVarint_same h env m w rd with h1 | h1
  · exact .inl (by simp only [Source.getSigned, h1])
  · exact .inr (by simp only [Source.getSigned, h1])

theorem getBoolLoop_same (h : Breaks R R') : ∀ (fuel : Nat) (rd : Rdr ρ) (value : Bool),
    SameE (R.getBoolLoop fuel rd value) (R'.getBoolLoop fuel rd value) := by
  intro fuel
  induction fuel with
  | zero =>
    intro rd value
    rcases readByte_same h rd with h1 | h1
    · exact .inl (by simp only [Source.getBoolLoop, h1])
    · exact .inr (by simp only [Source.getBoolLoop, h1])
  | succ fuel ih =>
    intro rd value
    rcases readByte_same h rd with h1 | h1
    · rw [Source.getBoolLoop, Source.getBoolLoop, h1]
      cases R'.readByte rd with
      | error e => exact .inl rfl
      | ok x =>
        simp only
        split
        · exact .inl rfl
        · exact ih _ _
    · exact .inr (by simp only [Source.getBoolLoop, h1])

theorem readTag_same (h : Breaks R R') (env : Env) (m : Mode) (rd : Rdr ρ) : SameE (R.readTag env m rd) (R'.readTag env m rd) := by
  rcases getVarint_same h env m 32 rd with h1 | h1
  · exact .inl (by simp only [Source.readTag, h1])
  · exact .inr (by simp only [Source.readTag, h1])

theorem skipField_same (h : Breaks R R') (env : Env) (m : Mode) (wt : WireType) (rd : Rdr ρ) :
    SameE (R.skipField env m wt rd) (R'.skipField env m wt rd) := by
  cases wt with
  | varint =>
    rcases getVarint_same h env m 8 rd with h1 | h1
    · exact .inl (by simp only [Source.skipField, h1])
    · exact .inr (by simp only [Source.skipField, h1])
  | sized =>
    rcases getVarint_same h env m 64 rd with h1 | h1
    · rw [Source.skipField, Source.skipField, h1]
      cases R'.getVarint env m 64 rd with
      | error e => exact .inl rfl
      | ok x =>
        simp only
        split
        · exact .inl rfl
        · rcases readToEnd_same (breaks_take (breaks_rdr h)) env env.fuel 0 (x.1.toNat, x.2) [] with h2 | ⟨_, h2⟩
          · exact .inl (by rw [h2])
          · exact .inr (by rw [h2])
    · exact .inr (by simp only [Source.skipField, h1])

theorem untilEof_same {α : Type} (h : Breaks R R') {step step' : α → Rdr ρ → RRes ρ α} (hs : ∀ v rd, SameR (step v rd) (step' v rd)) :
    ∀ (fuel : Nat) (v : α) (rd : Rdr ρ), SameR (R.untilEof step fuel v rd) (R'.untilEof step' fuel v rd) := by
  intro fuel
  induction fuel with
  | zero =>
    intro v rd
    rcases eof_same h rd with h1 | h1
    · exact .inl (by simp only [Source.untilEof, h1])
    · exact .inr ⟨v, by simp only [Source.untilEof, h1]⟩
  | succ fuel ih =>
    intro v rd
    rcases eof_same h rd with h1 | h1
    · rw [Source.untilEof, Source.untilEof, h1]
      cases R'.eof rd with
      | error e => exact .inl rfl
      | ok x =>
        rcases x with ⟨_ | _, rd1⟩
        · simp only
          rcases hs v rd1 with h2 | ⟨v', h2⟩
          · rw [h2]
            cases step' v rd1 with
            | ok v' rd2 => exact ih _ _
            | err v' e => exact .inl rfl
          · exact .inr ⟨v', by rw [h2]⟩
        · exact .inl rfl
    · exact .inr ⟨v, by simp only [Source.untilEof, h1]⟩

end

/-- A `merge` function run on a source that breaks. -/
def Steady {α : Type} (r : Merging α) : Prop :=
  ∀ (ρ : Type) (R R' : Source ρ), Breaks R R' → ∀ env m v rd, SameR (r ρ R env m v rd) (r ρ R' env m v rd)

section
variable {ρ : Type} {R R' : Source ρ}

theorem withNested_same {α : Type} (h : Breaks R R') (env : Env) (m : Mode) (v : α) (rd : Rdr ρ)
    {body body' : Rdr (Nat × Rdr ρ) → RRes (Nat × Rdr ρ) α} (hb : ∀ c, SameR (body c) (body' c)) :
    SameR (R.withNested env m v rd body) (R'.withNested env m v rd body') := by
  rcases getVarint_same h env m 64 rd with h1 | h1
  · rw [Source.withNested, Source.withNested, h1]
    cases R'.getVarint env m 64 rd with
    | error e => exact .inl rfl
    | ok x =>
      simp only
      rcases hb (.new (x.1.toNat, Source.asMutRead x.2)) with h2 | ⟨v', h2⟩
      · exact .inl (by rw [h2])
      · exact .inr ⟨v', by rw [h2]⟩
  · exact .inr ⟨v, by simp only [Source.withNested, h1]⟩

theorem mergeNested_same {α : Type} {r : Merging α} (hr : Steady r) (wire : WireType) (h : Breaks R R') (env : Env) (m : Mode) (v : α)
    (wt : WireType) (rd : Rdr ρ) : SameR (mergeNestedR wire r R env m v wt rd) (mergeNestedR wire r R' env m v wt rd) := by
  unfold mergeNestedR
  split
  · rcases skipField_same h env m wt rd with h1 | h1
    · exact .inl (by rw [h1])
    · exact .inr ⟨v, by rw [h1]⟩
  · cases wt with
    | varint => exact hr _ _ _ h _ _ _ _
    | sized => exact withNested_same h env m v rd fun c => hr _ _ _ (breaks_take (breaks_rdr h)) _ _ _ _

theorem deserializeNested_same {α : Type} {r : Merging α} (hr : Steady r) (wire : WireType) (dflt : α) (h : Breaks R R') (env : Env)
    (m : Mode) (wt : WireType) (rd : Rdr ρ) :
    SameE (deserializeNestedR wire dflt r R env m wt rd) (deserializeNestedR wire dflt r R' env m wt rd) := by
  unfold deserializeNestedR
  rcases mergeNested_same hr wire h env m dflt wt rd with h1 | ⟨v, h1⟩
  · exact .inl (by rw [h1])
  · exact .inr (by rw [h1])

theorem prim_same {α : Type} {get get' : Rdr ρ → Except IoErr (α × Rdr ρ)} {v : α} {rd : Rdr ρ} (h : SameE (get rd) (get' rd)) :
    SameR (primR get v rd) (primR get' v rd) := by
  rcases h with h1 | h1
  · exact .inl (by simp only [primR, h1])
  · exact .inr ⟨v, by simp only [primR, h1]⟩

theorem drain_same (h : Breaks R R') (env : Env) (rd : Rdr ρ) :
    R.rdr.readToEnd env env.fuel 0 rd [] = R'.rdr.readToEnd env env.fuel 0 rd [] ∨
      ∃ got, R.rdr.readToEnd env env.fuel 0 rd [] = .error (.source, got) := readToEnd_same (breaks_rdr h) env _ _ _ _

theorem vecStep_same {α : Type} (d : Dict α) {r : Merging α} (hr : Steady r) (h : Breaks R R') (env : Env) (m : Mode) (xs : List α)
    (rd : Rdr ρ) : SameR (vecStepR d r R env m xs rd) (vecStepR d r R' env m xs rd) := by
  unfold vecStepR
  rcases deserializeNested_same hr d.wire d.dflt h env m d.wire rd with h1 | h1
  · exact .inl (by rw [h1])
  · exact .inr ⟨xs, by rw [h1]⟩

theorem arrayLoop_same {α : Type} (d : Dict α) {r : Merging α} (hr : Steady r) (h : Breaks R R') (env : Env) (m : Mode) :
    ∀ (todo done : List α) (rd : Rdr ρ), SameR (arrayLoopR d r R env m done todo rd) (arrayLoopR d r R' env m done todo rd) := by
  intro todo
  induction todo with
  | nil => intro done rd; exact .inl rfl
  | cons t todo ih =>
    intro done rd
    rw [arrayLoopR, arrayLoopR]
    rcases eof_same h rd with h1 | h1
    · rw [h1]
      cases R'.eof rd with
      | error e => exact .inl rfl
      | ok x =>
        rcases x with ⟨_ | _, rd1⟩
        · simp only
          rcases deserializeNested_same hr d.wire d.dflt h env m d.wire rd1 with h2 | h2
          · rw [h2]
            cases deserializeNestedR d.wire d.dflt r R' env m d.wire rd1 with
            | error e => exact .inl rfl
            | ok x => exact (ih _ _).map _
          · exact .inr ⟨_, by rw [h2]⟩
        · exact .inl rfl
    · exact .inr ⟨_, by rw [h1]⟩

theorem array_steady {α : Type} (n : Nat) (d : Dict α) {r : Merging α} (hr : Steady r) : Steady (arrayR n d r) := by
  intro ρ R R' h env m xs rd
  unfold arrayR
  rcases (arrayLoop_same d hr h env m xs.1 [] rd).map
      (fun ys => (⟨ys.1, by have := ys.2; have := xs.2; simp_all⟩ : ArrayV α n)) with h1 | ⟨v, h1⟩
  · rw [h1]
    generalize RRes.map _ (arrayLoopR d r R' env m [] xs.1 rd) = x
    cases x with
    | err ys e => exact .inl rfl
    | ok ys rd1 =>
      rcases drain_same h env rd1 with h2 | ⟨_, h2⟩
      · exact .inl (by simp only [h2])
      · exact .inr ⟨ys, by simp only [h2]⟩
  · exact .inr ⟨v, by rw [h1]⟩

theorem string_steady : Steady stringR := by
  intro ρ R R' h env m v rd
  unfold stringR
  rcases drain_same h env rd with h1 | ⟨_, h1⟩
  · exact .inl (by rw [h1])
  · exact .inr ⟨v, by rw [h1]⟩

theorem bytes_steady : Steady bytesR := by
  intro ρ R R' h env m v rd
  unfold bytesR
  rcases drain_same h env rd with h1 | ⟨got, h1⟩
  · exact .inl (by rw [h1])
  · exact .inr ⟨v ++ got, by rw [h1]⟩

theorem hashMapStep_same {κ ν : Type} (eq : κ → κ → Bool) (dk : Dict κ) {rk : Merging κ} (hk : Steady rk) (dv : Dict ν)
    {rv : Merging ν} (hv : Steady rv) (h : Breaks R R') (env : Env) (m : Mode) (es : List (κ × ν)) (rd : Rdr ρ) :
    SameR (hashMapStepR eq dk rk dv rv R env m es rd) (hashMapStepR eq dk rk dv rv R' env m es rd) := by
  unfold hashMapStepR
  rcases deserializeNested_same hk dk.wire dk.dflt h env m dk.wire rd with h1 | h1
  · rw [h1]
    cases deserializeNestedR dk.wire dk.dflt rk R' env m dk.wire rd with
    | error e => exact .inl rfl
    | ok x =>
      simp only
      rcases deserializeNested_same hv dv.wire dv.dflt h env m dv.wire x.2 with h2 | h2
      · exact .inl (by rw [h2])
      · exact .inr ⟨es, by rw [h2]⟩
  · exact .inr ⟨es, by rw [h1]⟩

theorem listStep_same {α : Type} (d : Dict α) {r : Merging α} (hr : Steady r) (h : Breaks R R') (env : Env) (m : Mode) (l : ListV α)
    (rd : Rdr ρ) : SameR (listStepR d r R env m l rd) (listStepR d r R' env m l rd) := by
  unfold listStepR
  simp only
  rcases mergeNested_same hr d.wire h env m (d.withRuntime (l.rt.nested (fieldNo l.items.length))) d.wire rd with h1 | ⟨v, h1⟩
  · exact .inl (by rw [h1])
  · exact .inr ⟨l, by rw [h1]⟩

theorem readMapKey_same (h : Breaks R R') (env : Env) (m : Mode) (kt : KeyTy) (rd : Rdr ρ) :
    SameE (readMapKeyR R env m kt rd) (readMapKeyR R' env m kt rd) := by
  rcases getVarint_same h env m 32 rd with h1 | h1
  · exact .inl (by simp only [readMapKeyR, h1])
  · exact .inr (by simp only [readMapKeyR, h1])

theorem mapStep_same {α : Type} (kt : KeyTy) (d : Dict α) {r : Merging α} (hr : Steady r) (h : Breaks R R') (env : Env) (m : Mode)
    (v : MapV α) (rd : Rdr ρ) : SameR (mapStepR kt d r R env m v rd) (mapStepR kt d r R' env m v rd) := by
  unfold mapStepR
  rcases readMapKey_same h env m kt rd with h1 | h1
  · rw [h1]
    cases readMapKeyR R' env m kt rd with
    | error e => exact .inl rfl
    | ok x =>
      simp only
      split
      · exact (mergeNested_same hr d.wire h env m _ d.wire x.2).map _
      · rcases mergeNested_same hr d.wire h env m (d.withRuntime (v.rt.nested x.1)) d.wire x.2 with h2 | ⟨_, h2⟩
        · exact .inl (by rw [h2])
        · exact .inr ⟨v, by rw [h2]⟩
  · exact .inr ⟨v, by rw [h1]⟩

end

/-- The same for the components of a tuple. -/
def TupleSteady {α : Type} (t : TupleR α) : Prop :=
  ∀ (ρ : Type) (R R' : Source ρ), Breaks R R' → ∀ env m rd, SameE (t ρ R env m rd) (t ρ R' env m rd)

theorem tupleCons_steady {α β : Type} (d : Dict α) {r : Merging α} (hr : Steady r) {t : TupleR β} (ht : TupleSteady t) :
    TupleSteady (tupleConsR d r t) := by
  intro ρ R R' h env m rd
  unfold tupleConsR
  rcases deserializeNested_same hr d.wire d.dflt h env m d.wire rd with h1 | h1
  · rw [h1]
    cases deserializeNestedR d.wire d.dflt r R' env m d.wire rd with
    | error e => exact .inl rfl
    | ok x =>
      simp only
      rcases ht _ _ _ h env m x.2 with h2 | h2
      · exact .inl (by rw [h2])
      · exact .inr (by rw [h2])
  · exact .inr (by rw [h1])

theorem tuple_steady {α : Type} {t : TupleR α} (ht : TupleSteady t) : Steady (tupleR t) := by
  intro ρ R R' h env m v rd
  unfold tupleR
  rcases ht _ _ _ h env m rd with h1 | h1
  · rw [h1]
    cases t ρ R' env m rd with
    | error e => exact .inl rfl
    | ok x =>
      simp only
      rcases drain_same h env x.2 with h2 | ⟨_, h2⟩
      · exact .inl (by rw [h2])
      · exact .inr ⟨x.1, by rw [h2]⟩
  · exact .inr ⟨v, by rw [h1]⟩

/-- The same for the arms of a `merger`. -/
def FieldsSteady {β : Type} (fs : FieldR β) : Prop :=
  ∀ (ρ : Type) (R R' : Source ρ), Breaks R R' → ∀ env m no wt v rd,
    (fs ρ R env m no wt v rd = none ∧ fs ρ R' env m no wt v rd = none) ∨
    ∃ r r', fs ρ R env m no wt v rd = some r ∧ fs ρ R' env m no wt v rd = some r' ∧ SameR r r'

theorem fieldsCons_steady {α β : Type} (tag : U32) (d : Dict α) {r : Merging α} (hr : Steady r) {fs : FieldR β} (hf : FieldsSteady fs) :
    FieldsSteady (fieldsConsR tag d r fs) := by
  intro ρ R R' h env m no wt v rd
  unfold fieldsConsR
  split
  · exact .inr ⟨_, _, rfl, rfl, (mergeNested_same hr d.wire h env m v.1 wt rd).map _⟩
  · rcases hf _ _ _ h env m no wt v.2 rd with ⟨h1, h2⟩ | ⟨x, x', h1, h2, h3⟩
    · exact .inl ⟨by rw [h1]; rfl, by rw [h2]; rfl⟩
    · exact .inr ⟨_, _, by rw [h1]; rfl, by rw [h2]; rfl, h3.map _⟩

theorem fieldsMerge_steady {β : Type} {fs : FieldR β} (hf : FieldsSteady fs) : Steady (fieldsMergeR fs) := by
  intro ρ R R' h env m v rd
  refine untilEof_same h (fun v rd => ?_) _ _ _
  unfold mergeStepR
  rcases readTag_same h env m rd with h1 | h1
  · rw [h1]
    cases R'.readTag env m rd with
    | error e => exact .inl rfl
    | ok x =>
      simp only
      rcases hf _ _ _ h env m x.1.1 x.1.2 v x.2 with ⟨h2, h3⟩ | ⟨y, y', h2, h3, h4⟩
      · rw [h2, h3]
        simp only
        rcases skipField_same h env m x.1.2 x.2 with h5 | h5
        · exact .inl (by rw [h5])
        · exact .inr ⟨v, by rw [h5]⟩
      · rw [h2, h3]
        exact h4
  · exact .inr ⟨v, by rw [h1]⟩

theorem variantsCons_steady {β γ : Type} {fs : FieldR β} (hf : FieldsSteady fs) {r : Merging γ} (hr : Steady r) :
    Steady (variantsConsR fs r) := by
  intro ρ R R' h env m v rd
  cases v with
  | inl v => exact (fieldsMerge_steady hf _ _ _ h env m v rd).map _
  | inr v => exact (hr _ _ _ h env m v rd).map _

theorem enum_steady {γ : Type} (ds : Bool) (vs : VariantsD γ) {r : Merging γ} (hr : Steady r) : Steady (enumR ds vs r) := by
  intro ρ R R' h env m v rd
  unfold enumR
  rcases getVarint_same h env m 32 rd with h1 | h1
  · rw [h1]
    cases R'.getVarint env m 32 rd with
    | error e => exact .inl rfl
    | ok x =>
      simp only
      split
      · exact (hr _ _ _ h env m _ _).map _
      · split
        · split
          · exact .inl rfl
          · split
            · exact .inl rfl
            · exact (hr _ _ _ h env m _ _).map _
        · split
          · exact .inl rfl
          · exact (hr _ _ _ h env m _ _).map _
  · exact .inr ⟨v, by rw [h1]⟩

mutual
theorem steady : (t : Ty) → Steady t.mergeR
  | .uint w => fun _ _ _ h env m _ rd => by simp only [Ty.mergeR]; exact prim_same (getVarint_same h env m _ rd)
  | .sint w => fun _ _ _ h env m _ rd => by simp only [Ty.mergeR]; exact prim_same (getSigned_same h env m _ rd)
  | .bool => fun _ _ _ h env m _ rd => by simp only [Ty.mergeR]; exact prim_same (getBoolLoop_same h _ rd _)
  | .string => by simp only [Ty.mergeR]; exact string_steady
  | .bytes => by simp only [Ty.mergeR]; exact bytes_steady
  | .vec t => fun _ _ _ h env m _ _ => by
    simp only [Ty.mergeR]; exact untilEof_same h (vecStep_same t.dict (steady t) h env m) _ _ _
  | .array n t => by simp only [Ty.mergeR]; exact array_steady n t.dict (steady t)
  | .tuple ts => by simp only [Ty.mergeR]; exact tuple_steady (tupleSteady ts)
  | .option t => fun _ _ _ h env m _ _ => by
    simp only [Ty.mergeR]
    exact untilEof_same h (fun o rd => (mergeNested_same (steady t) t.dict.wire h env m _ t.dict.wire rd).map _) _ _ _
  | .box t => by simp only [Ty.mergeR]; exact steady t
  | .hashMap k v => fun _ _ _ h env m _ _ => by
    simp only [Ty.mergeR]
    exact untilEof_same h (hashMapStep_same k.eq k.dict (steady k) v.dict (steady v) h env m) _ _ _
  | .list t => fun _ _ _ h env m _ _ => by
    simp only [Ty.mergeR]; exact untilEof_same h (listStep_same t.dict (steady t) h env m) _ _ _
  | .map k t => fun _ _ _ h env m _ _ => by
    simp only [Ty.mergeR]; exact untilEof_same h (mapStep_same k t.dict (steady t) h env m) _ _ _
  | .struct _ _ fs => fun _ _ _ h env m _ _ => by
    simp only [Ty.mergeR]; exact (fieldsMerge_steady (fieldsSteady fs) _ _ _ h env m _ _).map _
  | .enum ds cached fs vs => by
    simp only [Ty.mergeR]; exact enum_steady ds _ (variantsCons_steady (fieldsSteady fs) (variantsSteady vs))

theorem tupleSteady : (ts : Tys) → TupleSteady ts.readR
  | .nil => fun _ _ _ _ _ _ _ => .inl rfl
  | .cons t ts => by simp only [Tys.readR]; exact tupleCons_steady t.dict (steady t) (tupleSteady ts)

theorem fieldsSteady : (fs : Fields) → FieldsSteady fs.fieldR
  | .nil => fun _ _ _ _ _ _ _ _ _ _ => .inl ⟨rfl, rfl⟩
  | .cons tag _ t fs => by simp only [Fields.fieldR]; exact fieldsCons_steady tag t.dict (steady t) (fieldsSteady fs)

theorem variantsSteady : (vs : Variants) → Steady vs.mergeR
  | .nil => fun _ _ _ _ _ _ v _ => nomatch v
  | .cons _ _ fs vs => by simp only [Variants.mergeR]; exact variantsCons_steady (fieldsSteady fs) (variantsSteady vs)
end

end Steit
