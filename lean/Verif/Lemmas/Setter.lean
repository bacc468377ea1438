import Verif.Lemmas.Sync
import Verif.Spec.Setter

/-! # Generated setters -/

namespace Steit
open Spec

mutual
theorem strip_init : (t : Ty) → (∀ rt, strip t (t.dict.withRuntime rt) = strip t (initial t)) ∧ strip t t.dict.dflt = strip t (initial t)
  | .uint _ => ⟨fun _ => rfl, rfl⟩
  | .sint _ => ⟨fun _ => rfl, rfl⟩
  | .bool => ⟨fun _ => rfl, rfl⟩
  | .string => ⟨fun _ => rfl, rfl⟩
  | .bytes => ⟨fun _ => rfl, rfl⟩
  | .vec t => ⟨fun _ => rfl, rfl⟩
  | .array n t => by
    have h : strip (.array n t) (Ty.array n t).dict.dflt = strip (.array n t) (initial (.array n t)) := by
      refine Subtype.ext ?_
      show (List.replicate n t.dict.dflt).map (strip t) = (List.replicate n (initial t)).map (strip t)
      rw [List.map_replicate, List.map_replicate, (strip_init t).2]
    exact ⟨fun _ => h, h⟩
  | .tuple ts => ⟨fun _ => strip_initTuple ts, strip_initTuple ts⟩
  | .option t => ⟨fun _ => rfl, rfl⟩
  | .box t => strip_init t
  | .hashMap _ _ => ⟨fun _ => rfl, rfl⟩
  | .list _ => ⟨fun _ => rfl, rfl⟩
  | .map _ _ => ⟨fun _ => rfl, rfl⟩
  | .struct true _ fs => ⟨fun rt => congrArg (StructV.mk Rt.dflt) (strip_initFields fs true _),
      congrArg (StructV.mk Rt.dflt) (strip_initFields fs true _)⟩
  | .struct false _ fs => ⟨fun rt => congrArg (StructV.mk Rt.dflt) (strip_initFields fs false _),
      congrArg (StructV.mk Rt.dflt) (strip_initFields fs false _)⟩
  | .enum true _ fs vs => ⟨fun rt => congrArg (fun x => EnumV.mk Rt.dflt (Sum.inl x)) (strip_initFields fs true _),
      congrArg (fun x => EnumV.mk Rt.dflt (Sum.inl x)) (strip_initFields fs true _)⟩
  | .enum false _ fs vs => ⟨fun rt => congrArg (fun x => EnumV.mk Rt.dflt (Sum.inl x)) (strip_initFields fs false _),
      congrArg (fun x => EnumV.mk Rt.dflt (Sum.inl x)) (strip_initFields fs false _)⟩

theorem strip_initTuple : (ts : Tys) → stripTuple ts ts.dict.dflt = stripTuple ts (initialTuple ts)
  | .nil => rfl
  | .cons t ts => Prod.ext (strip_init t).2 (strip_initTuple ts)

theorem strip_initFields : (fs : Fields) → ∀ ds rt, stripFields fs ((fs.dict ds).init rt) = stripFields fs (initialFields fs)
  | .nil, _, _ => rfl
  | .cons tag attrs t fs, ds, rt => by
    refine Prod.ext ?_ (strip_initFields fs ds rt)
    show strip t (match rt, ds && !attrs.noState with
      | some rt, true => t.dict.withRuntime (rt.nested tag)
      | _, _ => t.dict.dflt) = _
    split
    · exact (strip_init t).1 _
    · exact (strip_init t).2
end

theorem strip_setField : (fs : Fields) → ∀ op x y, stripFields fs x = stripFields fs y →
    stripFields fs (setField fs op x) = stripFields fs (setField fs op y)
  | .nil, op, _, _, _ => nomatch op
  | .cons _ _ t fs, .inl (.set z), x, y, h => by
    have h2 : stripFields fs x.2 = stripFields fs y.2 := congrArg Prod.snd h
    exact congrArg (Prod.mk (strip t z)) h2
  | .cons _ _ _ _, .inl (.setWith _), _, _, h => h
  | .cons _ _ _ _, .inl (.inner _), _, _, h => h
  | .cons _ _ t fs, .inr op, x, y, h => by
    have h1 : strip t x.1 = strip t y.1 := congrArg Prod.fst h
    have h2 : stripFields fs x.2 = stripFields fs y.2 := congrArg Prod.snd h
    exact Prod.ext h1 (strip_setField fs op x.2 y.2 h2)

theorem strip_setVariant : (vs : Variants) → ∀ op x y, stripVariant vs x = stripVariant vs y →
    stripVariant vs (setVariant vs op x) = stripVariant vs (setVariant vs op y)
  | .nil, op, _, _, _ => nomatch op
  | .cons _ _ fs _, .inl op, .inl x, .inl y, h => congrArg Sum.inl (strip_setField fs op x y (Sum.inl.inj h))
  | .cons _ _ _ _, _, .inl _, .inr _, h => nomatch h
  | .cons _ _ _ _, _, .inr _, .inl _, h => nomatch h
  | .cons _ _ _ _, .inl _, .inr _, .inr _, _ => rfl
  | .cons _ _ _ _, .inr _, .inl _, .inl _, _ => rfl
  | .cons _ _ _ vs, .inr op, .inr x, .inr y, h => congrArg Sum.inr (strip_setVariant vs op x y (Sum.inr.inj h))

/-- From another variant, the result is as from the default value of the setter's variant. -/
theorem setVariant_initial : (vs : Variants) → ∀ op v, isCurrent vs op v = false →
    setVariant vs op v = setVariant vs op (initialVariant vs op)
  | .nil, op, _, _ => nomatch op
  | .cons _ _ _ _, .inl _, .inl _, h => nomatch h
  | .cons _ _ _ _, .inl _, .inr _, _ => rfl
  | .cons _ _ _ _, .inr _, .inl _, _ => rfl
  | .cons _ _ _ vs, .inr op, .inr v, h => congrArg Sum.inr (setVariant_initial vs op v h)

theorem opTag_mem : (vs : Variants) → ∀ op, vs.opTag op ∈ vs.tags
  | .nil, op => nomatch op
  | .cons _ _ _ _, .inl _ => by simp [Variants.opTag, Variants.tags]
  | .cons _ _ _ vs, .inr op => by
    simp only [Variants.opTag, Variants.tags, List.mem_cons]
    exact .inr (opTag_mem vs op)

theorem tagOf_mem' : (vs : Variants) → ∀ v, (vs.dict true).tagOf v ∈ vs.tags
  | .nil, v => nomatch v
  | .cons tag _ _ _, .inl _ => by
    show tag ∈ _
    simp [Variants.tags]
  | .cons _ _ _ vs, .inr v => by
    show (vs.dict true).tagOf v ∈ _
    simp only [Variants.tags, List.mem_cons]
    exact .inr (tagOf_mem' vs v)

theorem isCurrent_iff : (vs : Variants) → vs.tags.Nodup → ∀ op v,
    isCurrent vs op v = true ↔ (vs.dict true).tagOf v = vs.opTag op
  | .nil, _, op, _ => nomatch op
  | .cons _ _ _ _, _, .inl _, .inl _ => ⟨fun _ => rfl, fun _ => rfl⟩
  | .cons tag _ _ vs, hn, .inl _, .inr v => by
    rw [Variants.tags, List.nodup_cons] at hn
    refine ⟨fun h => (nomatch h), fun h => absurd ?_ hn.1⟩
    have : (vs.dict true).tagOf v = tag := h
    rw [← this]
    exact tagOf_mem' vs v
  | .cons tag _ _ vs, hn, .inr op, .inl _ => by
    rw [Variants.tags, List.nodup_cons] at hn
    refine ⟨fun h => (nomatch h), fun h => absurd ?_ hn.1⟩
    have : tag = vs.opTag op := h
    rw [this]
    exact opTag_mem vs op
  | .cons _ _ _ vs, hn, .inr op, .inr v => by
    rw [Variants.tags, List.nodup_cons] at hn
    exact isCurrent_iff vs hn.2 op v

theorem ctor_initial : (vs : Variants) → vs.tags.Nodup → ∀ op rt,
    ∃ x, (vs.dict true).ctor (vs.opTag op) rt = some x ∧ stripVariant vs x = stripVariant vs (initialVariant vs op)
  | .nil, _, op, _ => nomatch op
  | .cons tag _ fs _, _, .inl _, rt => by
    refine ⟨.inl ((fs.dict true).init rt), ?_, congrArg Sum.inl (strip_initFields fs true rt)⟩
    show (if tag = tag then _ else _) = _
    rw [if_pos rfl]
  | .cons tag _ fs vs, hn, .inr op, rt => by
    rw [Variants.tags, List.nodup_cons] at hn
    obtain ⟨x, h1, h2⟩ := ctor_initial vs hn.2 op rt
    refine ⟨.inr x, ?_, congrArg Sum.inr h2⟩
    show (if vs.opTag op = tag then _ else Option.map Sum.inr ((vs.dict true).ctor (vs.opTag op) rt)) = _
    rw [if_neg (fun h : vs.opTag op = tag => hn.1 (h ▸ opTag_mem vs op)), h1]
    rfl

theorem run_setField : (fs : Fields) → fs.WF true → ∀ op m rt v w, SetsField fs op →
    ∃ v' w', fs.run m rt op v w = (.ok v', w') ∧ stripFields fs v' = stripFields fs (setField fs op v) ∧
      Logged rt w w' [setterEntry fs op]
  | .nil, _, op, _, _, _, _, _ => nomatch op
  | .cons tag attrs t fs, hf, .inl (.set x), m, rt, v, w, ⟨hn, hx, _⟩ => by
    have hx' : Sendable t (t.dict.setRuntime (rt.nested tag) x) := sendable_same (strip_setRuntime t _ _) hx
    obtain ⟨w1, h1, h2⟩ := logUpdateChild_run hf.2.2.1 rt m tag hx' w
    refine ⟨(t.dict.setRuntime (rt.nested tag) x, v.2), w1, ?_, Prod.ext (strip_setRuntime t _ _) rfl, ?_⟩
    · simp only [Fields.run, runField, hn, Bool.not_false, if_true]
      exact Exec.bind_of (Exec.bind_of (f := fun _ => (pure (t.dict.setRuntime (rt.nested tag) x) : Exec t.El)) h1)
    · rw [encode_same (strip_setRuntime t _ _)] at h2
      exact h2
  | .cons _ _ _ _, _, .inl (.setWith _), _, _, _, _, h => nomatch h
  | .cons _ _ _ _, _, .inl (.inner _), _, _, _, _, h => nomatch h
  | .cons tag attrs t fs, hf, .inr op, m, rt, v, w, h => by
    obtain ⟨v', w', h1, h2, h3⟩ := run_setField fs hf.2.2.2 op m rt v.2 w h
    exact ⟨(v.1, v'), w', Exec.bind_of (f := fun y => (pure (v.1, y) : Exec (t.El × fs.El))) h1, Prod.ext rfl h2, h3⟩

theorem run_setVariant : (vs : Variants) → vs.WF true → ∀ op m rt v w, SetsVariant vs op → isCurrent vs op v = true →
    ∃ v' w', vs.run m (rt.nested (vs.opTag op)) op v w = (.ok v', w') ∧
      stripVariant vs v' = stripVariant vs (setVariant vs op v) ∧ Logged rt w w' [variantEntry vs op]
  | .nil, _, op, _, _, _, _, _, _ => nomatch op
  | .cons tag _ fs vs, hf, .inl op, m, rt, .inl v, w, h, _ => by
    obtain ⟨v', w', h1, h2, h3⟩ := run_setField fs hf.2.2.1 op m (rt.nested tag) v w h
    refine ⟨.inl v', w', Exec.map_of (f := Sum.inl) h1, congrArg Sum.inl h2, ?_⟩
    have := h3.nested
    exact this
  | .cons _ _ _ _, _, .inl _, _, _, .inr _, _, _, h => nomatch h
  | .cons _ _ _ _, _, .inr _, _, _, .inl _, _, _, h => nomatch h
  | .cons tag _ fs vs, hf, .inr op, m, rt, .inr v, w, h, hc => by
    obtain ⟨v', w', h1, h2, h3⟩ := run_setVariant vs hf.2.2.2 op m rt v w h hc
    exact ⟨.inr v', w', Exec.map_of (f := Sum.inr) h1, congrArg Sum.inr h2, h3⟩

theorem setsField_isSet : (fs : Fields) → ∀ op, SetsField fs op → fs.isSet op = true
  | .nil, op, _ => nomatch op
  | .cons _ _ _ _, .inl (.set _), _ => rfl
  | .cons _ _ _ _, .inl (.setWith _), h => nomatch h
  | .cons _ _ _ _, .inl (.inner _), h => nomatch h
  | .cons _ _ _ fs, .inr op, h => setsField_isSet fs op h

theorem setsVariant_isSet : (vs : Variants) → ∀ op, SetsVariant vs op → vs.isSet op = true
  | .nil, op, _ => nomatch op
  | .cons _ _ fs _, .inl op, h => setsField_isSet fs op h
  | .cons _ _ _ vs, .inr op, h => setsVariant_isSet vs op h

theorem setsField_addr : (fs : Fields) → ∀ op x, SetsField fs op → OpAddrFields fs op x ∧ OpSyncFields fs op x
  | .nil, op, _, _ => nomatch op
  | .cons _ _ _ _, .inl (.set _), _, h => ⟨h.2.2, h.1, h.2.1⟩
  | .cons _ _ _ _, .inl (.setWith _), _, h => nomatch h
  | .cons _ _ _ _, .inl (.inner _), _, h => nomatch h
  | .cons _ _ _ fs, .inr op, x, h => setsField_addr fs op x.2 h

theorem setsVariant_addr : (vs : Variants) → ∀ op x, SetsVariant vs op → OpAddrVariant vs op x ∧ OpSyncVariant vs op x
  | .nil, op, _, _ => nomatch op
  | .cons _ _ fs _, .inl op, .inl x, h => setsField_addr fs op x h
  | .cons _ _ fs _, .inl op, .inr _, h => ⟨fun _ x => (setsField_addr fs op x h).1, fun _ x => (setsField_addr fs op x h).2⟩
  | .cons _ _ _ vs, .inr op, .inl _, h => ⟨fun _ x => (setsVariant_addr vs op x h).1, fun _ x => (setsVariant_addr vs op x h).2⟩
  | .cons _ _ _ vs, .inr op, .inr x, h => setsVariant_addr vs op x h

theorem run_noState : (fs : Fields) → ∀ op m rt v w, SetsNoState fs op → fs.run m rt op v w = (.ok (setField fs op v), w)
  | .nil, op, _, _, _, _, _ => nomatch op
  | .cons tag attrs t fs, .inl (.set x), m, rt, v, w, h => by
    have hn : attrs.noState = true := h
    simp only [Fields.run, runField, hn, Bool.not_true, Bool.false_eq_true, if_false]
    rfl
  | .cons _ _ _ _, .inl (.setWith _), _, _, _, _, h => nomatch h
  | .cons _ _ _ _, .inl (.inner _), _, _, _, _, h => nomatch h
  | .cons tag attrs t fs, .inr op, m, rt, v, w, h =>
    Exec.bind_of (f := fun y => (pure (v.1, y) : Exec (t.El × fs.El))) (run_noState fs op m rt v.2 w h)

theorem noStateTags_mem : (fs : Fields) → ∀ tag, tag ∈ noStateTags fs → tag ∈ fs.tags
  | .nil, _, h => h
  | .cons tag' attrs t fs, tag, h => by
    simp only [noStateTags] at h
    simp only [Fields.tags, List.mem_cons]
    split at h
    · rcases List.mem_cons.1 h with h | h
      · exact .inl h
      · exact .inr (noStateTags_mem fs tag h)
    · exact .inr (noStateTags_mem fs tag h)

theorem handle_noState : (fs : Fields) → fs.tags.Nodup → ∀ tag, tag ∈ noStateTags fs → ∀ m v path kind key bs,
    (fs.dict true).handleField m tag v path kind key bs = some (.ok v bs)
  | .nil, _, _, h, _, _, _, _, _, _ => nomatch h
  | .cons tag' attrs t fs, hn, tag, h, m, v, path, kind, key, bs => by
    rw [Fields.tags, List.nodup_cons] at hn
    show (if tag = tag' then some (if true && !attrs.noState then
        (t.dict.handle m v.1 path kind key bs).map (fun x => (x, v.2)) else .ok v bs)
      else ((fs.dict true).handleField m tag v.2 path kind key bs).map (fun r => r.map (fun y => (v.1, y)))) = _
    simp only [noStateTags] at h
    by_cases hh : tag = tag'
    · rw [if_pos hh]
      split at h
      · rename_i hs; simp [hs]
      · exact absurd (hh ▸ noStateTags_mem fs tag h) hn.1
    · rw [if_neg hh]
      have h' : tag ∈ noStateTags fs := by
        split at h
        · rcases List.mem_cons.1 h with h | h
          · exact absurd h hh
          · exact h
        · exact h
      rw [handle_noState fs hn.2 tag h']
      rfl

end Steit
