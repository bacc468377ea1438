import Verif.Lemmas.Part
import Verif.Lemmas.Means
import Verif.Props.Sync

/-!
# Entries about an object inside, as entries about the whole
-/

namespace Steit
open Spec

theorem steps_fieldPart : ∀ {fs : Fields} {v : fs.El} {tag : U32} {s : Ty} {u : s.El} {put : s.El → fs.El}, FieldPart fs v tag s u put →
    ∀ {u' : s.El} {es : List Entry}, Steps (Means s) u es u' → Steps (InsideFields fs) v (es.map (under [tag])) (put u') := by
  intro fs v tag s u put h
  induction h with
  | head hn => intro u' es hs; exact steps_field hn hs
  | tail _ ih => intro u' es hs; exact steps_fields_tail (ih hs)

theorem steps_variantPart : ∀ {vs : Variants} {v : vs.El} {vtag tag : U32} {s : Ty} {u : s.El} {put : s.El → vs.El},
    VariantPart vs v vtag tag s u put →
    ∀ {u' : s.El} {es : List Entry}, Steps (Means s) u es u' → Steps (InsideVariant vs) v (es.map (under [vtag, tag])) (put u') := by
  intro vs v vtag tag s u put h
  induction h with
  | @here vtag tag cached fs vs v s u put h =>
    intro u' es hs
    have key := (steps_fieldPart h hs).lift (N := InsideVariant (.cons vtag cached fs vs)) (fun z => .inl z) (under [vtag])
      (fun _ e _ hy => ⟨e, rfl, hy⟩)
    rw [List.map_map] at key
    have : (under [vtag] ∘ under [tag]) = under [vtag, tag] := by funext e; cases e <;> rfl
    rwa [this] at key
  | @there vtag vtag' tag cached fs vs v s u put _ ih =>
    intro u' es hs
    exact (ih hs).lift_id (N := InsideVariant (.cons vtag' cached fs vs)) (fun z => .inr z) (fun _ _ _ hy => hy)

theorem steps_child {t : Ty} {v : t.El} {p : List U32} {s : Ty} {u : s.El} {put : s.El → t.El} (h : Child t v p s u put) {u' : s.El}
    {es : List Entry} (hs : Steps (Means s) u es u') : Steps (Means t) v (es.map (under p)) (put u') := by
  cases h with
  | item hi hx => exact steps_item hi hx hs
  | @value kt t v pre post k x hv hk =>
    have := steps_value (kt := kt) (v := v) (k := k) (by rw [hv]; exact entriesGet_split hk) hs
    rwa [hv, entriesInsert_split hk] at this
  | field h => exact steps_struct (steps_fieldPart h hs)
  | variant h => exact steps_enum (steps_variantPart h hs)

/-- Entries about an object say of the state around it that this object changed. -/
theorem steps_part {t : Ty} {v : t.El} {p : List U32} {s : Ty} {u : s.El} {put : s.El → t.El} (h : Part t v p s u put) :
    ∀ {u' : s.El} {es : List Entry}, Steps (Means s) u es u' → Steps (Means t) v (es.map (under p)) (put u') := by
  induction h with
  | self =>
    intro u' es hs
    rwa [map_under_nil]
  | box _ ih =>
    intro u' es hs
    exact (ih hs).lift_id (fun z => z) (fun _ _ _ hy => hy)
  | @inside t v p q c x put s u put' hc _ ih =>
    intro u' es hs
    have := steps_child hc (ih hs)
    rw [List.map_map] at this
    have e : (under p ∘ under q) = under (p ++ q) := by funext e; cases e <;> simp [under]
    rwa [e] at this

end Steit
