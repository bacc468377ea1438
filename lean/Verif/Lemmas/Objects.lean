import Verif.Spec.Relay

/-! # Everything inside a carried value is carried -/

namespace Steit
open Spec

theorem mapM_keys {α : Type} (kt : KeyTy) (es : List (U32 × α)) (h : ∀ e ∈ es, e.1.toNat ≤ kt.max) :
    es.mapM (fun e : U32 × α => match kt.tryFromFieldNumber e.1 with
      | .ok k => (.ok k : Except Err U32)
      | .error _ => .error .panic) = .ok (es.map (·.1)) := by
  induction es with
  | nil => rfl
  | cons e es ih =>
    have he : kt.tryFromFieldNumber e.1 = .ok e.1 := by
      unfold KeyTy.tryFromFieldNumber
      rw [if_pos (h e (by simp))]
    rw [List.mapM_cons, he, ih (fun x hx => h x (by simp [hx]))]
    rfl

mutual
theorem carried_objects : (t : Ty) → ∀ v, Carried t v → ∀ o ∈ objects t v, Carried o.1 o.2
  | .uint _, v, h, o, ho => by cases List.mem_singleton.1 ho; exact h
  | .sint _, v, h, o, ho => by cases List.mem_singleton.1 ho; exact h
  | .bool, v, h, o, ho => by cases List.mem_singleton.1 ho; exact h
  | .string, v, h, o, ho => by cases List.mem_singleton.1 ho; exact h
  | .bytes, v, h, o, ho => by cases List.mem_singleton.1 ho; exact h
  | .vec t, v, h, o, ho => by
    rcases List.mem_cons.1 ho with rfl | ho
    · exact h
    · obtain ⟨x, hx, ho⟩ := List.mem_flatMap.1 ho
      exact carried_objects t x (h x hx) o ho
  | .array _ t, v, h, o, ho => by
    rcases List.mem_cons.1 ho with rfl | ho
    · exact h
    · obtain ⟨x, hx, ho⟩ := List.mem_flatMap.1 ho
      exact carried_objects t x (h x hx) o ho
  | .tuple ts, v, h, o, ho => by
    rcases List.mem_cons.1 ho with rfl | ho
    · exact h
    · exact carried_objectsTuple ts v h o ho
  | .option t, v, h, o, ho => by
    rcases List.mem_cons.1 ho with rfl | ho
    · exact h
    · obtain ⟨x, hx, ho⟩ := List.mem_flatMap.1 ho
      exact carried_objects t x (h x (Option.mem_toList.1 hx)) o ho
  | .box t, v, h, o, ho => by
    rcases List.mem_cons.1 ho with rfl | ho
    · exact h
    · exact carried_objects t v h o ho
  | .hashMap k w, v, h, o, ho => by
    rcases List.mem_cons.1 ho with rfl | ho
    · exact h
    · obtain ⟨e, he, ho⟩ := List.mem_flatMap.1 ho
      rcases List.mem_append.1 ho with ho | ho
      · exact carried_objects k e.1 (h.1 e he).1 o ho
      · exact carried_objects w e.2 (h.1 e he).2 o ho
  | .list t, v, h, o, ho => by
    rcases List.mem_cons.1 ho with rfl | ho
    · exact h
    · obtain ⟨x, hx, ho⟩ := List.mem_flatMap.1 ho
      exact carried_objects t x (h x hx) o ho
  | .map _ t, v, h, o, ho => by
    rcases List.mem_cons.1 ho with rfl | ho
    · exact h
    · obtain ⟨e, he, ho⟩ := List.mem_flatMap.1 ho
      exact carried_objects t e.2 (h.1 e he).2.2 o ho
  | .struct _ _ fs, v, h, o, ho => by
    rcases List.mem_cons.1 ho with rfl | ho
    · exact h
    · exact carried_objectsFields fs v.fields h o ho
  | .enum _ _ fs vs, ⟨_, .inl x⟩, h, o, ho => by
    rcases List.mem_cons.1 ho with rfl | ho
    · exact h
    · exact carried_objectsFields fs x h o ho
  | .enum _ _ fs vs, ⟨_, .inr x⟩, h, o, ho => by
    rcases List.mem_cons.1 ho with rfl | ho
    · exact h
    · exact carried_objectsVariant vs x h o ho

theorem carried_objectsTuple : (ts : Tys) → ∀ v, CarriedTuple ts v → ∀ o ∈ objectsTuple ts v, Carried o.1 o.2
  | .nil, _, _, o, ho => nomatch ho
  | .cons t ts, v, h, o, ho => by
    rcases List.mem_append.1 ho with ho | ho
    · exact carried_objects t v.1 h.1 o ho
    · exact carried_objectsTuple ts v.2 h.2 o ho

theorem carried_objectsFields : (fs : Fields) → ∀ v, CarriedFields fs v → ∀ o ∈ objectsFields fs v, Carried o.1 o.2
  | .nil, _, _, o, ho => nomatch ho
  | .cons _ _ t fs, v, h, o, ho => by
    rcases List.mem_append.1 ho with ho | ho
    · exact carried_objects t v.1 h.1 o ho
    · exact carried_objectsFields fs v.2 h.2 o ho

theorem carried_objectsVariant : (vs : Variants) → ∀ v, CarriedVariant vs v → ∀ o ∈ objectsVariant vs v, Carried o.1 o.2
  | .nil, v, _, _, _ => nomatch v
  | .cons _ _ fs _, .inl x, h, o, ho => carried_objectsFields fs x h o ho
  | .cons _ _ _ vs, .inr x, h, o, ho => carried_objectsVariant vs x h o ho
end

end Steit
