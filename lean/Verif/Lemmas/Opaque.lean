import Verif.Lemmas.Revision
import Verif.Lemmas.Strip
import Verif.Spec.Opaque

/-! # Values with opaque parts are encoded like the values themselves -/

namespace Steit
open Spec

theorem Spec.Veil.wire : (r : Veil) → r.Fair → wireOf r.relay = wireOf r.src
  | .same _, _ => rfl
  | .hide t, h => Eq.symm h
  | .vec _, _ => rfl
  | .array _ _, _ => rfl
  | .tuple _, _ => rfl
  | .option _, _ => rfl
  | .box r, h => r.wire h
  | .hashMap _ _, _ => rfl
  | .list _, _ => rfl
  | .map _ _, _ => rfl
  | .struct _ _ _ _ _, _ => rfl
  | .enum _ _ _ _ _ _, _ => rfl

theorem Spec.Veil.leftOut (r : Veil) (h : r.Fair) (v : r.src.El) (bs : Bytes) :
    leftOut r.relay (r.seen v) bs = Spec.leftOut r.src v bs := by
  cases r <;> first | rfl | exact (leftOut_sized h v bs).symm

theorem flatMap_map_eq {α β γ : Type} {f : β → List γ} {g : α → List γ} {s : α → β} (h : ∀ x, f (s x) = g x) (xs : List α) :
    (xs.map s).flatMap f = xs.flatMap g := by
  induction xs with
  | nil => rfl
  | cons x xs ih => simp only [List.map_cons, List.flatMap_cons, h, ih]

mutual
/-- The bytes are the same. -/
theorem Spec.Veil.encode : (r : Veil) → r.Fair → ∀ v, encode r.relay (r.seen v) = Spec.encode r.src v
  | .same _, _, _ => rfl
  | .hide _, _, _ => rfl
  | .vec r, h, v => flatMap_map_eq (fun x => by rw [r.encode h, r.wire h]) v
  | .array _ r, h, v => flatMap_map_eq (fun x => by rw [r.encode h, r.wire h]) v.1
  | .tuple rs, h, v => rs.encode h v
  | .option r, h, none => rfl
  | .option r, h, some x => by
    simp only [Veil.seen, Spec.encode, Option.map_some, Option.toList_some, List.flatMap_cons, List.flatMap_nil, r.encode h, r.wire h]
  | .box r, h, v => r.encode h v
  | .hashMap k r, h, v => flatMap_map_eq (s := fun e : k.El × r.src.El => (e.1, r.seen e.2))
    (fun x => by simp only [r.encode h, r.wire h]) v
  | .list r, h, v => flatMap_map_eq (fun x => by rw [r.encode h, r.wire h]) v.items
  | .map _ r, h, v => flatMap_map_eq (s := fun e : U32 × r.src.El => (e.1, r.seen e.2))
    (fun x => by simp only [r.encode h, r.wire h]) v.entries
  | .struct _ _ _ _ fs, h, v => fs.encode h v.fields
  | .enum _ _ _ _ fs vs, h, ⟨_, .inl x⟩ => by simp only [Veil.seen, Spec.encode, fs.encode h.1]
  | .enum _ _ _ _ fs vs, h, ⟨_, .inr x⟩ => by simp only [Veil.seen, Spec.encode, vs.encode h.2]

theorem Spec.VeilTuple.encode : (rs : VeilTuple) → rs.Fair → ∀ v, encodeTuple rs.relay (rs.seen v) = encodeTuple rs.src v
  | .nil, _, _ => rfl
  | .cons r rs, h, v => by simp only [VeilTuple.seen, encodeTuple, r.encode h.1, r.wire h.1, rs.encode h.2]

theorem Spec.VeilFields.encode : (fs : VeilFields) → fs.Fair → ∀ v, encodeFields fs.relay (fs.seen v) = encodeFields fs.src v
  | .nil, _, _ => rfl
  | .cons _ _ _ r fs, h, v => by
    simp only [VeilFields.seen, encodeFields, r.encode h.1, r.wire h.1, r.leftOut h.1, fs.encode h.2]

theorem Spec.VeilVariants.encode : (vs : VeilVariants) → vs.Fair → ∀ v,
    encodeVariant vs.relay (vs.seen v) = encodeVariant vs.src v
  | .nil, _, v => nomatch v
  | .cons _ _ _ fs vs, h, .inl x => by simp only [VeilVariants.seen, encodeVariant, fs.encode h.1]
  | .cons _ _ _ fs vs, h, .inr x => by simp only [VeilVariants.seen, encodeVariant, vs.encode h.2]
end

mutual
/-- What is carried with its parts in sight is carried with some of them hidden. -/
theorem Spec.Veil.carried : (r : Veil) → ∀ v, Carried r.src v → Carried r.relay (r.seen v)
  | .same _, _, hc => hc
  | .hide _, _, _ => trivial
  | .vec r, v, hc => by
    intro y hy
    obtain ⟨x, hx, rfl⟩ := List.mem_map.1 hy
    exact r.carried x (hc x hx)
  | .array _ r, v, hc => by
    intro y hy
    obtain ⟨x, hx, rfl⟩ := List.mem_map.1 hy
    exact r.carried x (hc x hx)
  | .tuple rs, v, hc => rs.carried v hc
  | .option r, v, hc => by
    intro y hy
    obtain ⟨x, hx, rfl⟩ := Option.map_eq_some_iff.1 hy
    exact r.carried x (hc x hx)
  | .box r, v, hc => r.carried v hc
  | .hashMap k r, v, hc => by
    refine ⟨fun y hy => ?_, ?_⟩
    · obtain ⟨x, hx, rfl⟩ := List.mem_map.1 hy
      exact ⟨(hc.1 x hx).1, r.carried x.2 (hc.1 x hx).2⟩
    · exact List.pairwise_map.2 hc.2
  | .list r, v, hc => by
    intro y hy
    obtain ⟨x, hx, rfl⟩ := List.mem_map.1 hy
    exact r.carried x (hc x hx)
  | .map _ r, v, hc => by
    refine ⟨fun y hy => ?_, ?_⟩
    · obtain ⟨x, hx, rfl⟩ := List.mem_map.1 hy
      exact ⟨(hc.1 x hx).1, (hc.1 x hx).2.1, r.carried x.2 (hc.1 x hx).2.2⟩
    · simpa only [Veil.seen, List.map_map, Function.comp_def] using hc.2
  | .struct _ _ _ _ fs, v, hc => fs.carried v.fields hc
  | .enum _ _ _ _ fs vs, ⟨_, .inl x⟩, hc => fs.carried x hc
  | .enum _ _ _ _ fs vs, ⟨_, .inr x⟩, hc => vs.carried x hc

theorem Spec.VeilTuple.carried : (rs : VeilTuple) → ∀ v, CarriedTuple rs.src v → CarriedTuple rs.relay (rs.seen v)
  | .nil, _, _ => trivial
  | .cons r rs, v, hc => ⟨r.carried v.1 hc.1, rs.carried v.2 hc.2⟩

theorem Spec.VeilFields.carried : (fs : VeilFields) → ∀ v, CarriedFields fs.src v → CarriedFields fs.relay (fs.seen v)
  | .nil, _, _ => trivial
  | .cons _ _ _ r fs, v, hc => ⟨r.carried v.1 hc.1, fs.carried v.2 hc.2⟩

theorem Spec.VeilVariants.carried : (vs : VeilVariants) → ∀ v, CarriedVariant vs.src v → CarriedVariant vs.relay (vs.seen v)
  | .nil, v, _ => nomatch v
  | .cons _ _ _ fs vs, .inl x, hc => fs.carried x hc
  | .cons _ _ _ fs vs, .inr x, hc => vs.carried x hc
end

end Steit
