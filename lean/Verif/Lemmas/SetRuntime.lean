import Verif.Lemmas.AnyTy
import Verif.Lemmas.Carried
import Verif.Lemmas.DecTy

/-! # `set_runtime` changes nothing but runtimes; carried values -/

namespace Steit
open Spec

theorem strip_setRuntimeItems {α : Type} {d : Dict α} {strip : α → α} (h : ∀ rt x, strip (d.setRuntime rt x) = strip x)
    (rt : Rt) : ∀ (xs : List α) (i : Nat), (setRuntimeItems d rt i xs).map strip = xs.map strip
  | [], _ => rfl
  | x :: xs, i => by
    simp only [setRuntimeItems, List.map_cons, h, strip_setRuntimeItems h rt xs (i + 1)]

mutual
theorem strip_setRuntime : (t : Ty) → ∀ rt v, strip t (t.dict.setRuntime rt v) = strip t v
  | .uint _, _, _ => rfl
  | .sint _, _, _ => rfl
  | .bool, _, _ => rfl
  | .string, _, _ => rfl
  | .bytes, _, _ => rfl
  | .vec _, _, _ => rfl
  | .array _ _, _, _ => rfl
  | .tuple _, _, _ => rfl
  | .option _, _, _ => rfl
  | .box t, rt, v => strip_setRuntime t rt v
  | .hashMap _ _, _, _ => rfl
  | .list t, rt, v => congrArg (ListV.mk Rt.dflt) (strip_setRuntimeItems (strip_setRuntime t) rt v.items 0)
  | .map _ t, rt, v => by
    refine congrArg (MapV.mk Rt.dflt) ?_
    show (v.entries.map (fun e => (e.1, t.dict.setRuntime (rt.nested e.1) e.2))).map (fun e => (e.1, strip t e.2)) = _
    rw [List.map_map]
    exact List.map_congr_left (fun e _ => by simp only [Function.comp, strip_setRuntime t])
  | .struct true _ fs, rt, v => congrArg (StructV.mk Rt.dflt) (strip_setRuntimeFields fs true rt v.fields)
  | .struct false _ _, _, _ => rfl
  | .enum true cached fs vs, rt, ⟨own, .inl x⟩ =>
    congrArg (fun q => EnumV.mk Rt.dflt (Sum.inl q)) (strip_setRuntimeFields fs true (rt.nested 0#32) x)
  | .enum true cached fs vs, rt, ⟨own, .inr x⟩ =>
    congrArg (fun q => EnumV.mk Rt.dflt (Sum.inr q)) (strip_setRuntimeVariant vs true _ x)
  | .enum false _ _ _, _, _ => rfl

theorem strip_setRuntimeFields : (fs : Fields) → ∀ ds rt v, stripFields fs ((fs.dict ds).setRuntime rt v) = stripFields fs v
  | .nil, _, _, _ => rfl
  | .cons tag attrs t fs, ds, rt, v => by
    refine Prod.ext ?_ (strip_setRuntimeFields fs ds rt v.2)
    show strip t (if ds && !attrs.noState then t.dict.setRuntime (rt.nested tag) v.1 else v.1) = strip t v.1
    split
    · exact strip_setRuntime t _ _
    · rfl

theorem strip_setRuntimeVariant : (vs : Variants) → ∀ ds rt v,
    stripVariant vs ((vs.dict ds).setRuntime rt v) = stripVariant vs v
  | .nil, _, _, v => nomatch v
  | .cons _ _ fs _, ds, rt, .inl x => congrArg Sum.inl (strip_setRuntimeFields fs ds rt x)
  | .cons _ _ _ vs, ds, rt, .inr x => congrArg Sum.inr (strip_setRuntimeVariant vs ds rt x)
end

mutual
theorem carried_strip : (t : Ty) → ∀ v, Carried t (strip t v) ↔ Carried t v
  | .uint _, _ => Iff.rfl
  | .sint _, _ => Iff.rfl
  | .bool, _ => Iff.rfl
  | .string, _ => Iff.rfl
  | .bytes, _ => Iff.rfl
  | .vec t, v => forall_mem_map (carried_strip t) v
  | .array _ t, v => forall_mem_map (carried_strip t) v.1
  | .tuple ts, v => carried_stripTuple ts v
  | .option t, none => by simp [Carried, strip]
  | .option t, some x => by
    show (∀ y ∈ some (strip t x), Carried t y) ↔ ∀ y ∈ some x, Carried t y
    simp [carried_strip t x]
  | .box t, v => carried_strip t v
  | .hashMap k w, v => by
    show ((∀ e ∈ v.map (fun e => (strip k e.1, strip w e.2)), Carried k e.1 ∧ Carried w e.2) ∧
      (v.map (fun e => (strip k e.1, strip w e.2))).Pairwise (fun e e' => k.eq e.1 e'.1 = false)) ↔ _
    refine and_congr ?_ ?_
    · simp only [List.mem_map, forall_exists_index, and_imp, forall_apply_eq_imp_iff₂, carried_strip k, carried_strip w]
    · simp only [List.pairwise_map, eq_strip k]
  | .list t, v => forall_mem_map (carried_strip t) v.items
  | .map kt t, v => by
    show ((∀ e ∈ v.entries.map (fun e => (e.1, strip t e.2)), e.1.toNat ≤ kt.max ∧ e.1.toNat < 2 ^ 29 ∧ Carried t e.2) ∧
      ((v.entries.map (fun e => (e.1, strip t e.2))).map (·.1)).Nodup) ↔ _
    refine and_congr ?_ ?_
    · simp only [List.mem_map, forall_exists_index, and_imp, forall_apply_eq_imp_iff₂, carried_strip t]
    · rw [List.map_map]; exact Iff.rfl
  | .struct _ _ fs, v => carried_stripFields fs v.fields
  | .enum _ _ fs _, ⟨_, .inl x⟩ => carried_stripFields fs x
  | .enum _ _ _ vs, ⟨_, .inr x⟩ => carried_stripVariant vs x

theorem carried_stripTuple : (ts : Tys) → ∀ v, CarriedTuple ts (stripTuple ts v) ↔ CarriedTuple ts v
  | .nil, _ => Iff.rfl
  | .cons t ts, v => and_congr (carried_strip t v.1) (carried_stripTuple ts v.2)

theorem carried_stripFields : (fs : Fields) → ∀ v, CarriedFields fs (stripFields fs v) ↔ CarriedFields fs v
  | .nil, _ => Iff.rfl
  | .cons _ _ t fs, v => and_congr (carried_strip t v.1) (carried_stripFields fs v.2)

theorem carried_stripVariant : (vs : Variants) → ∀ v, CarriedVariant vs (stripVariant vs v) ↔ CarriedVariant vs v
  | .nil, v => nomatch v
  | .cons _ _ fs _, .inl x => carried_stripFields fs x
  | .cons _ _ _ vs, .inr x => carried_stripVariant vs x
end

theorem carried_same {t : Ty} {a b : t.El} (h : Same t a b) : Carried t a ↔ Carried t b := by
  rw [← carried_strip t a, show strip t a = strip t b from h, carried_strip t b]

mutual
/-- Default values can be carried. -/
theorem carried_init : (t : Ty) → (∀ rt, Carried t (t.dict.withRuntime rt)) ∧ Carried t t.dict.dflt
  | .uint _ => ⟨fun _ => trivial, trivial⟩
  | .sint w => by
    have h : Carried (.sint w) (0 : BitVec w.bits) := by
      show _ ∧ _
      cases w <;> decide
    exact ⟨fun _ => h, h⟩
  | .bool => ⟨fun _ => trivial, trivial⟩
  | .string => ⟨fun _ => trivial, trivial⟩
  | .bytes => ⟨fun _ => trivial, trivial⟩
  | .vec t => ⟨fun _ _ h => (nomatch h), fun _ h => (nomatch h)⟩
  | .array n t => by
    have h : Carried (.array n t) (Ty.array n t).dict.dflt := by
      intro x hx
      have : x = t.dict.dflt := List.eq_of_mem_replicate hx
      rw [this]
      exact (carried_init t).2
    exact ⟨fun _ => h, h⟩
  | .tuple ts => ⟨fun _ => carried_initTuple ts, carried_initTuple ts⟩
  | .option t => ⟨fun _ _ h => (nomatch h), fun _ h => (nomatch h)⟩
  | .box t => carried_init t
  | .hashMap _ _ => ⟨fun _ => ⟨fun _ h => (nomatch h), List.Pairwise.nil⟩, ⟨fun _ h => (nomatch h), List.Pairwise.nil⟩⟩
  | .list t => ⟨fun _ _ h => (nomatch h), fun _ h => (nomatch h)⟩
  | .map _ t => ⟨fun _ => ⟨fun _ h => (nomatch h), List.Pairwise.nil⟩, ⟨fun _ h => (nomatch h), List.Pairwise.nil⟩⟩
  | .struct true _ fs => ⟨fun rt => carried_initFields fs true (some rt), carried_initFields fs true _⟩
  | .struct false _ fs => ⟨fun _ => carried_initFields fs false none, carried_initFields fs false none⟩
  | .enum true _ fs vs => ⟨fun rt => carried_initFields fs true (some (rt.nested 0#32)), carried_initFields fs true _⟩
  | .enum false _ fs vs => ⟨fun _ => carried_initFields fs false none, carried_initFields fs false none⟩

theorem carried_initTuple : (ts : Tys) → CarriedTuple ts ts.dict.dflt
  | .nil => trivial
  | .cons t ts => ⟨(carried_init t).2, carried_initTuple ts⟩

theorem carried_initFields : (fs : Fields) → ∀ ds rt, CarriedFields fs ((fs.dict ds).init rt)
  | .nil, _, _ => trivial
  | .cons tag attrs t fs, ds, rt => by
    refine ⟨?_, carried_initFields fs ds rt⟩
    show Carried t (match rt, ds && !attrs.noState with
      | some rt, true => t.dict.withRuntime (rt.nested tag)
      | _, _ => t.dict.dflt)
    split
    · exact (carried_init t).1 _
    · exact (carried_init t).2
end

theorem carried_ctor : (vs : Variants) → ∀ ds tag rt v, (vs.dict ds).ctor tag rt = some v → CarriedVariant vs v
  | .nil, _, _, _, v, _ => nomatch v
  | .cons tag' _ fs vs, ds, tag, rt, v, h => by
    change (if tag = tag' then some (Sum.inl ((fs.dict ds).init rt)) else ((vs.dict ds).ctor tag rt).map .inr) = some v at h
    split at h
    · cases h; exact carried_initFields fs ds rt
    · obtain ⟨x, hx, rfl⟩ := Option.map_eq_some_iff.1 h
      exact carried_ctor vs ds tag rt x hx

end Steit
