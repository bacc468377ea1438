import Verif.Spec.FieldMeta
import Verif.Lemmas.TablesGen
import Verif.Props.Collect

/-!
# Lemmas on the metadata of fields
-/

namespace Steit.Gen

open Steit.Gen.Spec

variable {D : Type}

/-! ## Texts of types -/

/-- The texts of all arguments. -/
def Spec.CsTypes.texts (name : D → NameMeta) : CsTypes D → List Text
  | .nil => []
  | .cons t ts => t.show name :: ts.texts name

theorem joinComma_show (name : D → NameMeta) : ∀ (t : Text) (ts : CsTypes D), joinComma (t :: ts.texts name) = t ++ ts.showRest name
  | t, .nil => by simp [CsTypes.texts, joinComma, CsTypes.showRest]
  | t, .cons u us => by
    simp only [CsTypes.texts, joinComma, CsTypes.showRest]
    rw [joinComma_show name (u.show name) us]
    simp [List.append_assoc]

/-- Names the generator treats in a special way. -/
def Special (n : String) : Prop := n = "Box" ∨ n = "StateMap"

theorem typeName_ref {n : NameMeta} (hn : ¬ Special n.csharpName) {a : FieldTypeMeta} {as : TypeArgs} {ta : Text} {tas : List Text}
    (ha : fieldType a = some ta) (has : fieldTypes as = some tas) :
    typeName (.ref n (.cons a as)) = some (n.csharpName.toList ++ '<' :: joinComma (ta :: tas) ++ ['>']) := by
  simp only [typeName, ha, has]
  rw [if_neg fun h => hn (.inl h), if_neg fun h => hn (.inr h)]
  simp [fmt, Frag.text]

theorem typeName_show {name : D → NameMeta} {n : NameMeta} {what : Meaning D} (hw : what.text name = n.csharpName.toList)
    (hn : ¬ Special n.csharpName) {args : TypeArgs} {ts : CsTypes D} (h : fieldTypes args = some (ts.texts name)) :
    typeName (.ref n args) = some ((CsType.mk what ts).show name) := by
  cases args with
  | nil =>
    cases ts with
    | nil => simp only [typeName, CsType.show, hw]
    | cons => cases h
  | cons a as =>
    cases ts with
    | nil =>
      simp only [fieldTypes] at h
      split at h <;> cases h
    | cons t ts =>
      simp only [fieldTypes] at h
      split at h
      · rename_i ta tas h1 h2
        cases h
        rw [typeName_ref hn h1 h2, joinComma_show]
        simp only [CsType.show, hw]
      · cases h

mutual
theorem typeName_mirror (name : D → NameMeta) : ∀ (w : Written D), NoMap w → (∀ d, Mentions d w → ¬ Special (name d).csharpName) →
    typeName (w.typeMeta name) = some ((mirror w).show name)
  | .param p, _, _ => by simp [Written.typeMeta, typeName, mirror, CsType.show, Meaning.text, NameMeta.csharpName]
  | .prim r c w, _, _ => by simp [Written.typeMeta, typeName, mirror, CsType.show, Meaning.text]
  | .bytes, _, _ => by simp [Written.typeMeta, typeName, mirror, CsType.show, Meaning.text, NameMeta.csharpName]
  | .paren t, hm, hs => by
    simp only [NoMap, Mentions] at hm hs
    simp only [Written.typeMeta, mirror]; exact typeName_mirror name t hm hs
  | .array n t, hm, hs => by
    simp only [NoMap, Mentions] at hm hs
    simp only [Written.typeMeta, mirror]
    exact typeName_show rfl (by unfold Special; decide) (by simp only [fieldTypes, fieldType, typeName_mirror name t hm hs, CsTypes.texts])
  | .vec t, hm, hs => by
    simp only [NoMap, Mentions] at hm hs
    simp only [Written.typeMeta, mirror]
    exact typeName_show rfl (by unfold Special; decide) (by simp only [fieldTypes, fieldType, typeName_mirror name t hm hs, CsTypes.texts])
  | .option t, hm, hs => by
    simp only [NoMap, Mentions] at hm hs
    simp only [Written.typeMeta, mirror]
    exact typeName_show rfl (by unfold Special; decide) (by simp only [fieldTypes, fieldType, typeName_mirror name t hm hs, CsTypes.texts])
  | .box t, hm, hs => by
    simp only [NoMap, Mentions] at hm hs
    simp only [Written.typeMeta, mirror]; exact typeName_mirror name t hm hs
  | .list t, hm, hs => by
    simp only [NoMap, Mentions] at hm hs
    simp only [Written.typeMeta, mirror]
    exact typeName_show rfl (by unfold Special; decide) (by simp only [fieldTypes, fieldType, typeName_mirror name t hm hs, CsTypes.texts])
  | .map _ _ _ _, hm, _ => by simp only [NoMap] at hm
  | .msg d args, hm, hs => by
    simp only [NoMap, Mentions] at hm hs
    simp only [Written.typeMeta, mirror]
    exact typeName_show rfl (hs d (.inl rfl)) (fieldTypes_mirror' name args hm fun d' h => hs d' (.inr h))
  | .alias t, hm, hs => by
    simp only [NoMap, Mentions] at hm hs
    simp only [Written.typeMeta, mirror]; exact typeName_mirror name t hm hs

theorem fieldTypes_mirror' (name : D → NameMeta) : ∀ (ws : WrittenArgs D), NoMaps ws →
    (∀ d, MentionsAny d ws → ¬ Special (name d).csharpName) → fieldTypes (ws.typeMetas name) = some ((mirrors ws).texts name)
  | .nil, _, _ => by simp [WrittenArgs.typeMetas, fieldTypes, mirrors, CsTypes.texts]
  | .cons t ts, hm, hs => by
    simp only [NoMaps, MentionsAny] at hm hs
    simp only [WrittenArgs.typeMetas, fieldTypes, fieldType, mirrors, CsTypes.texts, typeName_mirror name t hm.1 fun d h => hs d (.inl h),
      fieldTypes_mirror' name ts hm.2 fun d h => hs d (.inr h)]
end

mutual
/-- Maps hide behind no alias. -/
theorem fieldType_mirror {S : Declarations D} {ps : List String} : ∀ (w : Written D), Proper S ps w →
    (∀ d, Mentions d w → ¬ Special (S.name d).csharpName) → fieldType (fieldTypeMeta S.name w) = some ((mirror w).show S.name)
  | .param p, _, _ => by simp [fieldTypeMeta, fieldType, mirror, CsType.show, Meaning.text]
  | .prim r c w, _, _ => by simp [fieldTypeMeta, fieldType, typeName, mirror, CsType.show, Meaning.text]
  | .bytes, _, _ => by simp [fieldTypeMeta, fieldType, typeName, mirror, CsType.show, Meaning.text, NameMeta.csharpName]
  | .paren t, hm, hs => by
    simp only [Proper, Mentions] at hm hs
    simp only [fieldTypeMeta, mirror]; exact fieldType_mirror t hm hs
  | .array n t, hm, hs => by
    simp only [Proper, Mentions] at hm hs
    simp only [fieldTypeMeta, fieldType, mirror]
    exact typeName_show rfl (by unfold Special; decide) (by simp only [fieldTypes, fieldType_mirror t hm hs, CsTypes.texts])
  | .vec t, hm, hs => by
    simp only [Proper, Mentions] at hm hs
    simp only [fieldTypeMeta, fieldType, mirror]
    exact typeName_show rfl (by unfold Special; decide) (by simp only [fieldTypes, fieldType_mirror t hm hs, CsTypes.texts])
  | .option t, hm, hs => by
    simp only [Proper, Mentions] at hm hs
    simp only [fieldTypeMeta, fieldType, mirror]
    exact typeName_show rfl (by unfold Special; decide) (by simp only [fieldTypes, fieldType_mirror t hm hs, CsTypes.texts])
  | .box t, hm, hs => by
    simp only [Proper, Mentions] at hm hs
    simp [fieldTypeMeta, fieldType, mirror, typeName, fieldType_mirror t hm hs, fieldTypes, NameMeta.csharpName]
  | .list t, hm, hs => by
    simp only [Proper, Mentions] at hm hs
    simp only [fieldTypeMeta, fieldType, mirror]
    exact typeName_show rfl (by unfold Special; decide) (by simp only [fieldTypes, fieldType_mirror t hm hs, CsTypes.texts])
  | .map r c w t, hm, hs => by
    simp only [Proper, Mentions] at hm hs
    have := fieldType_mirror t hm.2 hs
    simp [fieldTypeMeta, fieldType, mirror, typeName, this, fieldTypes, NameMeta.csharpName, CsType.show, Meaning.text, fmt, Frag.text, joinComma,
      CsTypes.showRest]
  | .msg d args, hm, hs => by
    simp only [Proper, Mentions] at hm hs
    simp only [fieldTypeMeta, fieldType, mirror]
    exact typeName_show rfl (hs d (.inl rfl)) (fieldTypes_mirror args hm.2 fun d' h => hs d' (.inr h))
  | .alias t, hm, hs => by
    simp only [Proper, Mentions] at hm hs
    simp only [fieldTypeMeta, fieldType, mirror]; exact typeName_mirror S.name t hm.2 hs

theorem fieldTypes_mirror {S : Declarations D} {ps : List String} : ∀ (ws : WrittenArgs D), ProperAll S ps ws →
    (∀ d, MentionsAny d ws → ¬ Special (S.name d).csharpName) → fieldTypes (fieldTypeMetas S.name ws) = some ((mirrors ws).texts S.name)
  | .nil, _, _ => by simp [fieldTypeMetas, fieldTypes, mirrors, CsTypes.texts]
  | .cons t ts, hm, hs => by
    simp only [ProperAll, MentionsAny] at hm hs
    simp only [fieldTypeMetas, fieldTypes, mirrors, CsTypes.texts, fieldType_mirror t hm.1 fun d h => hs d (.inl h),
      fieldTypes_mirror ts hm.2 fun d h => hs d (.inr h)]
end

/-! ## Metadata of types with and without parameters -/

mutual
/-- For types without parameters, `TYPE` is what is written. -/
theorem resolve_type {S : Declarations D} (ρ : String → RTy (Inst D)) : ∀ (w : Written D), Proper S [] w →
    instType S.name (w.resolve ρ) = w.typeMeta S.name
  | .param p, h => by simp [Proper] at h
  | .prim r c w, _ => by simp [Written.resolve, instType, Written.typeMeta]
  | .bytes, _ => by simp [Written.resolve, instType, Written.typeMeta]
  | .paren t, h => by simp only [Proper] at h; simp only [Written.resolve, Written.typeMeta]; exact resolve_type ρ t h
  | .array n t, h => by
    simp only [Proper] at h; simp only [Written.resolve, instType, Written.typeMeta, resolve_type ρ t h, TypeArgs.ofList]
  | .vec t, h => by
    simp only [Proper] at h; simp only [Written.resolve, instType, Written.typeMeta, resolve_type ρ t h, TypeArgs.ofList]
  | .option t, h => by
    simp only [Proper] at h; simp only [Written.resolve, instType, Written.typeMeta, resolve_type ρ t h, TypeArgs.ofList]
  | .box t, h => by simp only [Proper] at h; simp only [Written.resolve, instType, Written.typeMeta, resolve_type ρ t h]
  | .list t, h => by
    simp only [Proper] at h; simp only [Written.resolve, instType, Written.typeMeta, resolve_type ρ t h, TypeArgs.ofList]
  | .map r c w t, h => by
    simp only [Proper] at h; simp only [Written.resolve, instType, Written.typeMeta, resolve_type ρ t h.2, TypeArgs.ofList]
  | .msg d args, h => by
    simp only [Proper] at h; simp only [Written.resolve, instType, Inst.typeMeta, Written.typeMeta, resolve_types ρ args h.2]
  | .alias t, h => by simp only [Proper] at h; simp only [Written.resolve, Written.typeMeta]; exact resolve_type ρ t h.1

theorem resolve_types {S : Declarations D} (ρ : String → RTy (Inst D)) : ∀ (ws : WrittenArgs D), ProperAll S [] ws →
    TypeArgs.ofList (instTypes S.name (ws.resolve ρ)) = ws.typeMetas S.name
  | .nil, _ => by simp [WrittenArgs.resolve, instTypes, TypeArgs.ofList, WrittenArgs.typeMetas]
  | .cons t ts, h => by
    simp only [ProperAll] at h
    simp only [WrittenArgs.resolve, instTypes, TypeArgs.ofList, WrittenArgs.typeMetas, resolve_type ρ t h.1, resolve_types ρ ts h.2]
end

/-- The types of the graph of a program. -/
theorem program_type (S : Declarations D) : ∀ (t : RTy (Inst D)), t.type S.program = instType S.name t
  | .prim _ _ _ => by simp [RTy.type, instType]
  | .bytes => by simp [RTy.type, instType]
  | .vec t => by simp [RTy.type, instType, program_type S t]
  | .array _ t => by simp [RTy.type, instType, program_type S t]
  | .option t => by simp [RTy.type, instType, program_type S t]
  | .box t => by simp [RTy.type, instType, program_type S t]
  | .list t => by simp [RTy.type, instType, program_type S t]
  | .map _ t => by simp [RTy.type, instType, program_type S t]
  | .msg (.mk d args) => by simp [RTy.type, instType, Inst.typeMeta, Declarations.program, Inst.decl, Inst.args]

mutual
/-- Types of fields depend on types of arguments only. -/
theorem resolve_congr (S : Declarations D) {ρ σ : String → RTy (Inst D)} (h : ∀ p, instType S.name (ρ p) = instType S.name (σ p)) :
    ∀ (w : Written D), instType S.name (w.resolve ρ) = instType S.name (w.resolve σ)
  | .param p => h p
  | .prim _ _ _ => rfl
  | .bytes => rfl
  | .paren t => resolve_congr S h t
  | .array _ t => by simp only [Written.resolve, instType, resolve_congr S h t]
  | .vec t => by simp only [Written.resolve, instType, resolve_congr S h t]
  | .option t => by simp only [Written.resolve, instType, resolve_congr S h t]
  | .box t => by simp only [Written.resolve, instType, resolve_congr S h t]
  | .list t => by simp only [Written.resolve, instType, resolve_congr S h t]
  | .map _ _ _ t => by simp only [Written.resolve, instType, resolve_congr S h t]
  | .msg d args => by simp only [Written.resolve, instType, Inst.typeMeta, resolves_congr S h args]
  | .alias t => resolve_congr S h t

theorem resolves_congr (S : Declarations D) {ρ σ : String → RTy (Inst D)} (h : ∀ p, instType S.name (ρ p) = instType S.name (σ p)) :
    ∀ (ws : WrittenArgs D), instTypes S.name (ws.resolve ρ) = instTypes S.name (ws.resolve σ)
  | .nil => rfl
  | .cons t ts => by simp only [WrittenArgs.resolve, instTypes, resolve_congr S h t, resolves_congr S h ts]
end

theorem bindParams_congr (S : Declarations D) : ∀ (ps : List String) (as bs : List (RTy (Inst D))),
    instTypes S.name as = instTypes S.name bs → ∀ p, instType S.name (bindParams ps as p) = instType S.name (bindParams ps bs p)
  | [], _, _, _, _ => by simp [bindParams]
  | _ :: _, [], [], _, _ => by simp [bindParams]
  | _ :: _, [], b :: bs, h, _ => by simp [instTypes] at h
  | _ :: _, a :: as, [], h, _ => by simp [instTypes] at h
  | q :: ps, a :: as, b :: bs, h, p => by
    simp only [instTypes, List.cons.injEq] at h
    simp only [bindParams]
    split
    · exact h.1
    · exact bindParams_congr S ps as bs h.2 p

/-! ## What is reached -/

variable {S : Declarations D}

theorem reach_box {root : RTy (Inst D)} {t : RTy (Inst D)} (h : Reach S.program.graph.links root (.box t)) :
    Reach S.program.graph.links root t := h.link (List.mem_singleton.2 rfl)

theorem reach_field {root : RTy (Inst D)} {m : Inst D} (h : Reach S.program.graph.links root (.msg m)) {f : DeclField D}
    (hf : f ∈ (S.body m.decl).fields) : Reach S.program.graph.links root (f.ty.resolve (bindParams (S.params m.decl) m.args)) :=
  h.link (List.mem_map.2 ⟨f, hf, rfl⟩)

theorem mem_bindParams : ∀ {ps : List String} {as : List (RTy (Inst D))} {a : RTy (Inst D)}, ps.length = as.length → ps.Nodup → a ∈ as →
    ∃ p ∈ ps, bindParams ps as p = a
  | [], [], _, _, _, h => nomatch h
  | p :: ps, b :: as, a, hl, hn, h => by
    rcases List.mem_cons.1 h with rfl | h
    · exact ⟨p, .head _, by simp [bindParams]⟩
    · obtain ⟨q, hq, he⟩ := mem_bindParams (Nat.succ.inj hl) (List.nodup_cons.1 hn).2 h
      refine ⟨q, .tail _ hq, ?_⟩
      simp only [bindParams]
      rw [if_neg, he]
      rintro rfl
      exact (List.nodup_cons.1 hn).1 hq

theorem bindParams_mem : ∀ {ps : List String} {as : List (RTy (Inst D))} {p : String}, ps.length = as.length → p ∈ ps →
    bindParams ps as p ∈ as
  | p :: ps, b :: as, q, hl, h => by
    simp only [bindParams]
    split
    · exact .head _
    · rename_i hne
      exact .tail _ (bindParams_mem (Nat.succ.inj hl) ((List.mem_cons.1 h).resolve_left hne))

mutual
theorem reach_occurs (hn : ∀ d, (S.params d).Nodup) {root : RTy (Inst D)} {p : String} : ∀ {w : Written D}, Occurs S p w →
    ∀ ρ, Reach S.program.graph.links root (w.resolve ρ) → Reach S.program.graph.links root (ρ p)
  | _, .param, _, h => h
  | _, .paren o, ρ, h => reach_occurs hn o ρ h
  | _, .array o, ρ, h => reach_occurs hn o ρ (h.link (List.mem_singleton.2 rfl))
  | _, .vec o, ρ, h => reach_occurs hn o ρ (h.link (List.mem_singleton.2 rfl))
  | _, .option o, ρ, h => reach_occurs hn o ρ (h.link (List.mem_singleton.2 rfl))
  | _, .box o, ρ, h => reach_occurs hn o ρ (h.link (List.mem_singleton.2 rfl))
  | _, .list o, ρ, h => reach_occurs hn o ρ (h.link (List.mem_singleton.2 rfl))
  | _, .map o, ρ, h => reach_occurs hn o ρ (h.link (List.mem_singleton.2 rfl))
  | _, .msg (d := d) o, ρ, h => reach_occursArg hn o ρ (hn d) h fun q _ => rfl

theorem reach_occursArg (hn : ∀ d, (S.params d).Nodup) {root : RTy (Inst D)} {p : String} : ∀ {d : D} {ws : WrittenArgs D} {qs : List String},
    OccursArg S p d ws qs → ∀ ρ, qs.Nodup → ∀ {all : List (RTy (Inst D))}, Reach S.program.graph.links root (.msg (.mk d all)) →
    (∀ q ∈ qs, bindParams qs (ws.resolve ρ) q = bindParams (S.params d) all q) → Reach S.program.graph.links root (ρ p)
  | d, .cons t ts, q :: qs, .head o u, ρ, _, all, h, hb => by
    refine reach_occurs hn o ρ ?_
    have h1 := reach_used hn u h
    rw [← hb q (.head _)] at h1
    simpa [WrittenArgs.resolve, bindParams] using h1
  | d, .cons t ts, q :: qs, .tail o, ρ, hq, all, h, hb => by
    refine reach_occursArg hn o ρ (List.nodup_cons.1 hq).2 h fun q' hq' => ?_
    rw [← hb q' (.tail _ hq')]
    simp only [WrittenArgs.resolve, bindParams]
    rw [if_neg]
    rintro rfl
    exact (List.nodup_cons.1 hq).1 hq'

theorem reach_used (hn : ∀ d, (S.params d).Nodup) {root : RTy (Inst D)} : ∀ {d : D} {p : String}, Used S d p →
    ∀ {as : List (RTy (Inst D))}, Reach S.program.graph.links root (.msg (.mk d as)) →
    Reach S.program.graph.links root (bindParams (S.params d) as p)
  | _, _, .field hf o, _, h => reach_occurs hn o _ (reach_field h hf)
end

/-! ## Numbers of arguments -/

theorem fitsAll_mem {t : RTy (Inst D)} : ∀ {ts : List (RTy (Inst D))}, FitsAll S ts → t ∈ ts → Fits S t
  | _ :: _, h, hm => by
    simp only [FitsAll] at h
    rcases List.mem_cons.1 hm with rfl | hm
    · exact h.1
    · exact fitsAll_mem h.2 hm

theorem resolve_length (ρ : String → RTy (Inst D)) : ∀ (ws : WrittenArgs D), (ws.resolve ρ).length = ws.length
  | .nil => rfl
  | .cons _ ts => by simp only [WrittenArgs.resolve, List.length_cons, WrittenArgs.length, resolve_length ρ ts]

mutual
theorem fits_resolve {ps : List String} {ρ : String → RTy (Inst D)} (hρ : ∀ p ∈ ps, Fits S (ρ p)) : ∀ (w : Written D), Proper S ps w →
    Fits S (w.resolve ρ)
  | .param p, h => hρ p h
  | .prim _ _ _, _ => by simp [Written.resolve, Fits]
  | .bytes, _ => by simp [Written.resolve, Fits]
  | .paren t, h => by simp only [Proper] at h; exact fits_resolve hρ t h
  | .array _ t, h => by simp only [Proper] at h; simp only [Written.resolve, Fits]; exact fits_resolve hρ t h
  | .vec t, h => by simp only [Proper] at h; simp only [Written.resolve, Fits]; exact fits_resolve hρ t h
  | .option t, h => by simp only [Proper] at h; simp only [Written.resolve, Fits]; exact fits_resolve hρ t h
  | .box t, h => by simp only [Proper] at h; simp only [Written.resolve, Fits]; exact fits_resolve hρ t h
  | .list t, h => by simp only [Proper] at h; simp only [Written.resolve, Fits]; exact fits_resolve hρ t h
  | .map _ _ _ t, h => by simp only [Proper] at h; simp only [Written.resolve, Fits]; exact fits_resolve hρ t h.2
  | .msg d args, h => by
    simp only [Proper] at h
    simp only [Written.resolve, Fits, FitsInst]
    exact ⟨(resolve_length ρ args).trans h.1, fitsAll_resolve hρ args h.2⟩
  | .alias t, h => by
    simp only [Proper] at h
    simp only [Written.resolve]
    exact fits_resolve (ps := []) (fun _ h => nomatch h) t h.1

theorem fitsAll_resolve {ps : List String} {ρ : String → RTy (Inst D)} (hρ : ∀ p ∈ ps, Fits S (ρ p)) : ∀ (ws : WrittenArgs D),
    ProperAll S ps ws → FitsAll S (ws.resolve ρ)
  | .nil, _ => by simp [WrittenArgs.resolve, FitsAll]
  | .cons t ts, h => by
    simp only [ProperAll] at h
    simp only [WrittenArgs.resolve, FitsAll]
    exact ⟨fits_resolve hρ t h.1, fitsAll_resolve hρ ts h.2⟩
end

theorem reach_fits (hS : Compiles S) {root : RTy (Inst D)} (hr : Fits S root) {t : RTy (Inst D)}
    (h : Reach S.program.graph.links root t) : Fits S t := by
  induction h with
  | root => exact hr
  | @link m n _ hl ih =>
    match m, hl, ih with
    | .prim _ _ _, hl, _ => cases hl
    | .bytes, hl, _ => cases hl
    | .vec t, hl, ih => cases List.mem_singleton.1 hl; simpa only [Fits] using ih
    | .array _ t, hl, ih => cases List.mem_singleton.1 hl; simpa only [Fits] using ih
    | .option t, hl, ih => cases List.mem_singleton.1 hl; simpa only [Fits] using ih
    | .box t, hl, ih => cases List.mem_singleton.1 hl; simpa only [Fits] using ih
    | .list t, hl, ih => cases List.mem_singleton.1 hl; simpa only [Fits] using ih
    | .map _ t, hl, ih => cases List.mem_singleton.1 hl; simpa only [Fits] using ih
    | .msg (.mk d args), hl, ih =>
      obtain ⟨f, hf, rfl⟩ := List.mem_map.1 hl
      simp only [Fits, FitsInst] at ih
      exact fits_resolve (fun p hp => fitsAll_mem ih.2 (bindParams_mem ih.1.symm hp)) f.ty (hS.proper d f hf)

/-- Type arguments of what is reached are reached. -/
theorem reach_arg (hS : Compiles S) {root : RTy (Inst D)} (hr : Fits S root) {d : D} {args : List (RTy (Inst D))}
    (h : Reach S.program.graph.links root (.msg (.mk d args))) {a : RTy (Inst D)} (ha : a ∈ args) :
    Reach S.program.graph.links root a := by
  have hf := reach_fits hS hr h
  simp only [Fits, FitsInst] at hf
  obtain ⟨p, hp, rfl⟩ := mem_bindParams hf.1.symm (hS.nodup d) ha
  exact reach_used hS.nodup (hS.used d p hp) h

/-! ## Names -/

theorem toList_mem {n : String} {ns : List String} (h : n.toList ∈ ns.map String.toList) : n ∈ ns := by
  obtain ⟨m, hm, he⟩ := List.mem_map.1 h
  rw [← String.toList_injective he]
  exact hm

theorem mirrors_length : ∀ (ws : WrittenArgs D), (mirrors ws).length = ws.length
  | .nil => rfl
  | .cons _ ts => by simp only [mirrors, CsTypes.length, WrittenArgs.length, mirrors_length ts]

/-- Names of the library, where nothing else is named so. -/
theorem finds_library (hN : OwnNames S) {s : Scope D} (hs : ∀ x ∈ s.params.map String.toList ++ s.nested, x ∉ libraryClasses.map (·.1.toList))
    {n : String} (hn : n ∈ libraryClasses.map (·.1)) : Finds S.name s ((Meaning.library n : Meaning D).text S.name) (.library n) := by
  have hl : n.toList ∈ libraryClasses.map (·.1.toList) := by
    obtain ⟨c, hc, rfl⟩ := List.mem_map.1 hn
    exact List.mem_map.2 ⟨c, hc, rfl⟩
  refine ⟨rfl, hn, fun h => hs _ (List.mem_append_left _ h) hl, fun h => hs _ (List.mem_append_right _ h) hl, fun d _ h => ?_⟩
  have := (hN.fresh d).2.1
  rw [String.toList_injective h] at this
  exact this hn

theorem finds_system (hN : OwnNames S) {s : Scope D} (hs : ∀ x ∈ s.params.map String.toList ++ s.nested, x ∉ systemNames.map String.toList)
    {n : String} (hn : n ∈ systemNames) : Finds S.name s ((Meaning.system n : Meaning D).text S.name) (.system n) := by
  have hl : n.toList ∈ systemNames.map String.toList := List.mem_map.2 ⟨n, hn, rfl⟩
  refine ⟨rfl, hn, fun h => hs _ (List.mem_append_left _ h) hl, fun h => hs _ (List.mem_append_right _ h) hl, fun d _ h => ?_⟩
  have := (hN.fresh d).1
  rw [String.toList_injective h] at this
  exact this hn

mutual
theorem sound_mirror (hN : OwnNames S) (hS : Compiles S) {root : RTy (Inst D)} (hr : Fits S root) {s : Scope D}
    (hs : ∀ x ∈ s.params.map String.toList ++ s.nested, x ∉ systemNames.map String.toList ∧ x ∉ libraryClasses.map (·.1.toList))
    (hm : s.messages = InReach S root)
    {ps : List String} (hps : ∀ p ∈ ps, p ∈ s.params) (ρ : String → RTy (Inst D)) : ∀ (w : Written D), Proper S ps w →
    (∀ x ∈ s.params.map String.toList ++ s.nested, ∀ d, Mentions d w → (S.name d).csharpName.toList ≠ x) →
    Reach S.program.graph.links root (w.resolve ρ) → Sound S s (mirror w)
  | .param p, h, _, _ => by
    simp only [mirror, Sound]
    exact ⟨⟨rfl, hps p h⟩, rfl, trivial⟩
  | .prim _ c _, h, _, _ => by
    simp only [mirror, Sound]
    exact ⟨finds_system hN (fun x hx => (hs x hx).1) h, rfl, trivial⟩
  | .bytes, _, _, _ => by
    simp only [mirror, Sound]
    exact ⟨finds_library hN (fun x hx => (hs x hx).2) (by decide), rfl, trivial⟩
  | .paren t, h, hd, hr' => by
    simp only [Proper, Mentions] at h hd
    exact sound_mirror hN hS hr hs hm hps ρ t h hd hr'
  | .array _ t, h, hd, hr' => by
    simp only [Proper, Mentions] at h hd
    simp only [mirror, Sound]
    exact ⟨finds_library hN (fun x hx => (hs x hx).2) (by decide), rfl, sound_mirror hN hS hr hs hm hps ρ t h hd (hr'.link (List.mem_singleton.2 rfl)), trivial⟩
  | .vec t, h, hd, hr' => by
    simp only [Proper, Mentions] at h hd
    simp only [mirror, Sound]
    exact ⟨finds_library hN (fun x hx => (hs x hx).2) (by decide), rfl, sound_mirror hN hS hr hs hm hps ρ t h hd (hr'.link (List.mem_singleton.2 rfl)), trivial⟩
  | .option t, h, hd, hr' => by
    simp only [Proper, Mentions] at h hd
    simp only [mirror, Sound]
    exact ⟨finds_library hN (fun x hx => (hs x hx).2) (by decide), rfl, sound_mirror hN hS hr hs hm hps ρ t h hd (hr'.link (List.mem_singleton.2 rfl)), trivial⟩
  | .box t, h, hd, hr' => by
    simp only [Proper, Mentions] at h hd
    exact sound_mirror hN hS hr hs hm hps ρ t h hd (hr'.link (List.mem_singleton.2 rfl))
  | .list t, h, hd, hr' => by
    simp only [Proper, Mentions] at h hd
    simp only [mirror, Sound]
    exact ⟨finds_library hN (fun x hx => (hs x hx).2) (by decide), rfl, sound_mirror hN hS hr hs hm hps ρ t h hd (hr'.link (List.mem_singleton.2 rfl)), trivial⟩
  | .map _ _ _ t, h, hd, hr' => by
    simp only [Proper, Mentions] at h hd
    simp only [mirror, Sound]
    exact ⟨finds_library hN (fun x hx => (hs x hx).2) (by decide), rfl, sound_mirror hN hS hr hs hm hps ρ t h.2 hd (hr'.link (List.mem_singleton.2 rfl)),
      trivial⟩
  | .msg d args, h, hd, hr' => by
    simp only [Proper, Mentions] at h hd
    simp only [mirror, Sound]
    refine ⟨⟨rfl, fun hx => hd _ (List.mem_append_left _ hx) d (.inl rfl) rfl, fun hx => hd _ (List.mem_append_right _ hx) d (.inl rfl) rfl, ?_,
      fun d' _ he => hN.distinct d' d (String.toList_injective he)⟩, (mirrors_length args).trans h.1, ?_⟩
    · rw [hm]; exact ⟨_, rfl, hr'⟩
    · refine sound_mirrors hN hS hr hs hm hps ρ args h.2 (fun x hx d' hd' => hd x hx d' (.inr hd')) fun a ha => reach_arg hS hr hr' ha
  | .alias t, h, hd, hr' => by
    simp only [Proper, Mentions] at h hd
    exact sound_mirror hN hS hr hs hm (ps := []) (fun _ h => nomatch h) ρ t h.1 hd hr'

theorem sound_mirrors (hN : OwnNames S) (hS : Compiles S) {root : RTy (Inst D)} (hr : Fits S root) {s : Scope D}
    (hs : ∀ x ∈ s.params.map String.toList ++ s.nested, x ∉ systemNames.map String.toList ∧ x ∉ libraryClasses.map (·.1.toList))
    (hm : s.messages = InReach S root)
    {ps : List String} (hps : ∀ p ∈ ps, p ∈ s.params) (ρ : String → RTy (Inst D)) : ∀ (ws : WrittenArgs D),
    ProperAll S ps ws → (∀ x ∈ s.params.map String.toList ++ s.nested, ∀ d, MentionsAny d ws → (S.name d).csharpName.toList ≠ x) →
    (∀ a ∈ ws.resolve ρ, Reach S.program.graph.links root a) → SoundAll S s (mirrors ws)
  | .nil, _, _, _ => by simp only [mirrors, SoundAll]
  | .cons t ts, h, hd, hr' => by
    simp only [ProperAll, MentionsAny, WrittenArgs.resolve] at h hd hr'
    simp only [mirrors, SoundAll]
    exact ⟨sound_mirror hN hS hr hs hm hps ρ t h.1 (fun x hx d hd' => hd x hx d (.inl hd')) (hr' _ (.head _)),
      sound_mirrors hN hS hr hs hm hps ρ ts h.2 (fun x hx d hd' => hd x hx d (.inr hd')) fun a ha => hr' a (.tail _ ha)⟩
end

/-! ## Programs of declarations -/

/-- Declarations with names of their own make a program whose messages are told apart. -/
theorem told_program (hN : OwnNames S) : Told S.program where
  same m m' hn ha := by
    have hd : m.decl = m'.decl := hN.distinct _ _ (congrArg NameMeta.csharpName hn)
    refine ⟨by show S.message m.decl = S.message m'.decl; rw [hd], ?_⟩
    show ((S.body m.decl).fields.map _).map _ = ((S.body m'.decl).fields.map _).map _
    rw [hd, List.map_map, List.map_map]
    refine List.map_congr_left fun f _ => ?_
    simp only [Function.comp, program_type]
    exact resolve_congr S (bindParams_congr S _ _ _ ha) f.ty
  fresh m h := by
    have := (hN.fresh m.decl).2.1
    simp only [List.mem_cons, List.not_mem_nil, or_false] at h
    rcases h with h | h | h | h | h <;> (have h : S.name m.decl = _ := h; rw [h] at this; exact this (by decide))

/-- Classes of fields have properties of the types of the fields. -/
theorem fromMetas_types {cm : CaseMap} : ∀ {fs : List (DeclField D)} {cfs : List CSharpField},
    (∀ f ∈ fs, fieldType (fieldTypeMeta S.name f.ty) = some ((mirror f.ty).show S.name)) →
    CSharpField.fromMetas cm (fs.map (·.fieldMeta S.name)) = some cfs →
    cfs.map (fun f => (f.typeName, f.name)) =
      fs.map fun f => ((mirror f.ty).show S.name, toCamelCase cm f.name.csharpName.toList true)
  | [], _, _, h => by cases h; rfl
  | f :: fs, cfs, hf, h => by
    simp only [List.map_cons, CSharpField.fromMetas, CSharpField.fromMeta, DeclField.fieldMeta, hf f (.head _), Option.map_some] at h
    split at h
    · rename_i f' fs' h1 h2
      cases h1
      cases h
      rw [List.map_cons, List.map_cons, fromMetas_types (fun f hm => hf f (.tail _ hm)) h2]
    · cases h

end Steit.Gen
