import Verif.Lemmas.PartSame
import Verif.Props.Setters

/-!
# Objects inside a state: properties C50 and C51

`Part t v p s u put` (`Verif/Spec/Part.lean`): the state `v` holds the object `u` at path `p`; replacing it by `x` gives `put x`.
-/

namespace Steit
open Spec

/-- Neither path leads through the object the other one leads to. -/
def Unrelated (p p' : List U32) : Prop := ¬ p <+: p' ∧ ¬ p' <+: p

/-! ## C50 -/

/-- C50: an entry addressed to an object inside a state does to that object what the same entry, addressed to `[]`, does to the
object standing alone, and nothing else: whether it succeeds or fails (and then with the same error), the result is the
state with that object replaced by the result (however far a failing update got). -/
theorem C50_entry_acts_on_its_object {t : Ty} (ht : t.WF) {v : t.El} {p : List U32} {s : Ty} {u : s.El} {put : s.El → t.El}
    (h : Part t v p s u put) (m : Mode) (e : Entry) :
    (∀ u' rest, applyEntry s.dict m u e = .ok u' rest → applyEntry t.dict m v (under p e) = .ok (put u') rest) ∧
    (∀ u' err, applyEntry s.dict m u e = .err u' err → applyEntry t.dict m v (under p e) = .err (put u') err) := by
  have h1 : applyEntry t.dict m v (under p e) = (applyEntry s.dict m u e).map put := by
    cases e <;> exact handle_part h ht m _ _ _ _
  rw [h1]
  exact ⟨fun u' rest h2 => by rw [h2]; rfl, fun u' err h2 => by rw [h2]; rfl⟩

/-- C50: objects elsewhere are not touched by it, again whether it succeeds or fails. -/
theorem C50_other_objects_untouched {t : Ty} (ht : t.WF) {v : t.El} {p p' : List U32} {s s' : Ty} {u : s.El} {u' : s'.El}
    {put : s.El → t.El} {put' : s'.El → t.El} (h : Part t v p s u put) (h' : Part t v p' s' u' put') (hp : Unrelated p p')
    (m : Mode) (e : Entry) :
    (∀ v' rest, applyEntry t.dict m v (under p e) = .ok v' rest → ∃ put'', Part t v' p' s' u' put'') ∧
    (∀ v' err, applyEntry t.dict m v (under p e) = .err v' err → ∃ put'', Part t v' p' s' u' put'') := by
  obtain ⟨put2, _, _, h3, _⟩ := part_pair h h' ht hp.1 hp.2
  obtain ⟨k1, k2⟩ := C50_entry_acts_on_its_object ht h m e
  cases h2 : applyEntry s.dict m u e with
  | ok x rest =>
    rw [k1 x rest h2]
    exact ⟨fun v' _ hv => by cases hv; exact ⟨_, h3 x⟩, fun v' _ hv => (nomatch hv)⟩
  | err x err =>
    rw [k2 x err h2]
    exact ⟨fun v' _ hv => (nomatch hv), fun v' _ hv => by cases hv; exact ⟨_, h3 x⟩⟩

/-- C50: entries addressed to unrelated objects commute. If each of them succeeds on the state as it is, they succeed in both
orders, with the same result. -/
theorem C50_unrelated_entries_commute {t : Ty} (ht : t.WF) {v : t.El} {p p' : List U32} {s s' : Ty} {u : s.El} {u' : s'.El}
    {put : s.El → t.El} {put' : s'.El → t.El} (h : Part t v p s u put) (h' : Part t v p' s' u' put') (hp : Unrelated p p')
    (m : Mode) (e e' : Entry) (v1 v2 : t.El) (rest1 rest2 : Bytes) (h1 : applyEntry t.dict m v (under p e) = .ok v1 rest1)
    (h2 : applyEntry t.dict m v (under p' e') = .ok v2 rest2) :
    ∃ v3, applyEntry t.dict m v1 (under p' e') = .ok v3 rest2 ∧ applyEntry t.dict m v2 (under p e) = .ok v3 rest1 := by
  obtain ⟨put2, e1, e2, h3, h4⟩ := part_pair h h' ht hp.1 hp.2
  obtain ⟨k1, k2⟩ := C50_entry_acts_on_its_object ht h m e
  obtain ⟨k1', k2'⟩ := C50_entry_acts_on_its_object ht h' m e'
  cases hu : applyEntry s.dict m u e with
  | err x err => rw [k2 x err hu] at h1; cases h1
  | ok x rest =>
    cases hu' : applyEntry s'.dict m u' e' with
    | err y err => rw [k2' y err hu'] at h2; cases h2
    | ok y rest' =>
      rw [k1 x rest hu] at h1
      rw [k1' y rest' hu'] at h2
      cases h1
      cases h2
      exact ⟨put2 x y, (C50_entry_acts_on_its_object ht (h3 x) m e').1 y _ hu',
        (C50_entry_acts_on_its_object ht (h4 y) m e).1 x _ hu⟩

/-- C50 on the wire: swapping two such entries anywhere in a log does not change what replaying it does. -/
theorem C50_log_order_of_unrelated_entries {t : Ty} (ht : t.WF) {v : t.El} {p p' : List U32} {s s' : Ty} {u : s.El}
    {u' : s'.El} {put : s.El → t.El} {put' : s'.El → t.El} (h : Part t v p s u put) (h' : Part t v p' s' u' put')
    (hp : Unrelated p p') (m : Mode) (e e' : Entry) (v1 v2 r : t.El) (rest1 rest2 : Bytes) (before after : List Entry)
    (h0 : applyAll t.dict m r before = .ok v) (h1 : applyEntry t.dict m v (under p e) = .ok v1 rest1)
    (h2 : applyEntry t.dict m v (under p' e') = .ok v2 rest2) (hroot : t.dict.isRoot r = .ok true)
    (hf : ∀ x ∈ before ++ [under p e, under p' e'] ++ after, Fits x) :
    replay t.dict m r ((before ++ [under p e, under p' e'] ++ after).flatMap entryBytes) =
      replay t.dict m r ((before ++ [under p' e', under p e] ++ after).flatMap entryBytes) := by
  obtain ⟨v3, k1, k2⟩ := C50_unrelated_entries_commute ht h h' hp m e e' v1 v2 rest1 rest2 h1 h2
  rw [replay_eq t.dict m r _ hf hroot, replay_eq t.dict m r _ (fun x hx => hf x ?_) hroot]
  · rw [List.append_assoc, List.append_assoc, applyAll_append, applyAll_append, h0]
    simp only [List.cons_append, List.nil_append, applyAll, h1, h2, k1, k2]
  · simp only [List.mem_append, List.mem_cons, List.not_mem_nil, or_false] at hx ⊢
    rcases hx with (hx | hx | hx) | hx
    · exact .inl (.inl hx)
    · exact .inl (.inr (.inr hx))
    · exact .inl (.inr (.inl hx))
    · exact .inr hx

/-! ## C51 -/

/-- C51: a call on an object inside a state, wherever it sits. It changes that object only; what it logs goes to the logger of
the whole state, addressed below the object's path; objects elsewhere remain; and every replica of the whole state follows by
these entries. -/
theorem C51_call_on_an_object_inside {t : Ty} (ht : t.WF) (hst : t.isState = true) {v : t.El} {p : List U32} {s : Ty} {u : s.El} {put : s.El → t.El}
    (h : Part t v p s u put) (m : Mode) (op : s.Op) (rt : Rt) (w : World) (hv : At t rt v) (hc : Carried t v)
    (ha : OpAddr s op u) (ho : OpSync s op u) :
    ∃ (u' : s.El) (w' : World) (es : List Entry), s.run m op u w = (.ok u', w') ∧ At t rt (put u') ∧ Carried t (put u') ∧
      w'.loggers rt.logger = appended (w.loggers rt.logger) (es.map fun e => under rt.path (under p e)) ∧
      (∀ (p' : List U32) (s' : Ty) (x : s'.El) (put' : s'.El → t.El), Part t v p' s' x put' → Unrelated p p' →
        ∃ put'', Part t (put u') p' s' x put'') ∧
      (∀ m' r rt', At t rt' r → Same t r v →
        ∃ r', applyAll t.dict m' r (es.map (under p)) = .ok r' ∧ Same t r' (put u')) ∧
      (OpOnly s op → ∀ i, i ≠ rt.logger → w'.loggers i = w.loggers i) := by
  have hs := (wf_part h ht hst).1
  have hu : At s ⟨rt.logger, rt.path ++ p⟩ u := at_part h hv
  obtain ⟨u', w', es, h1, hc', hl, hf⟩ := syncs s hs m op u _ w hu (carried_part h hc) ha ho
  obtain ⟨op', k1, k2, k3, k4⟩ := run_part h hv op
  have hrun : t.run m op' v w = (.ok (put u'), w') := by
    rw [k1]
    exact Exec.map_of h1
  obtain ⟨v2, w2, es2, h2, hc2, _, _⟩ := syncs t ht m op' v rt w hv hc (k2 ha) (k3 ho)
  rw [hrun] at h2
  cases h2
  refine ⟨u', w', es, h1, at_run t ht m op' v rt w _ _ hv (k2 ha) hrun, hc2, ?_, ?_, ?_, ?_⟩
  · rw [hl]
    congr 1
    refine List.map_congr_left fun e _ => ?_
    cases e <;> simp [under]
  · intro p' s' x put' h' hp
    obtain ⟨put2, _, _, h3, _⟩ := part_pair h h' ht hp.1 hp.2
    exact ⟨_, h3 u'⟩
  · intro m' r rt' hr hsame
    obtain ⟨ur, putr, q1, q2, q3⟩ := part_same h hsame
    obtain ⟨r', q4, q5⟩ := hf m' ur _ (at_part q1 hr) q2
    exact ⟨putr r', applyAll_of_applies (applies_part ht m' q1 q4), q3 _ _ q5⟩
  · intro hon i hi
    have := only_run t ht m op' rt v hv (k4 hon) w i hi
    rw [hrun] at this
    exact this

/-! ## A case meeting the hypotheses

`hTy` is a struct with a list, a map of lists and an enum. -/

def pVal : hTy.El := hVal [7#8] [(3#32, ⟨⟨4, [1#32, 3#32]⟩, [1#8, 2#8]⟩)] (hB [5#8])

/-- The value at key 3 of the map in field 1. -/
theorem pVal_value : ∃ put, Part hTy pVal [1#32, 3#32] (.list (.uint .w8)) ⟨⟨4, [1#32, 3#32]⟩, [1#8, 2#8]⟩ put :=
  ⟨_, .inside (.field (.tail (.head rfl))) (.inside (.value (pre := []) (post := []) rfl (by simp)) .self)⟩

/-- The list in field 5 of variant 1 of the enum in field 2. -/
theorem pVal_variant : ∃ put, Part hTy pVal [2#32, 1#32, 5#32] (.list (.uint .w8)) ⟨⟨4, [2#32, 1#32, 5#32]⟩, [5#8]⟩ put :=
  ⟨_, .inside (.field (.tail (.tail (.head rfl)))) (.inside (.variant (.there (.here (.head rfl)))) .self)⟩

example : Unrelated [1#32, 3#32] [2#32, 1#32, 5#32] ∧ hTy.WF ∧ hTy.isState = true := ⟨by unfold Unrelated; decide, hTy_wf, rfl⟩

/-- The hypotheses of `C50_unrelated_entries_commute`: both entries succeed. -/
example : (∃ v1, applyEntry hTy.dict .debug pVal (under [1#32, 3#32] (.listPop [])) = .ok v1 []) ∧
    (∃ v2, applyEntry hTy.dict .debug pVal (under [2#32, 1#32, 5#32] (.update [0#32] [9#8])) = .ok v2 []) :=
  ⟨⟨_, rfl⟩, ⟨_, rfl⟩⟩

/-- Related entries do not commute: pushing below, and replacing, the same list. -/
example : (applyAll hTy.dict .debug pVal [.update [1#32] [], .listPop [1#32, 3#32]]).toOption.isSome = false ∧
    (applyAll hTy.dict .debug pVal [.listPop [1#32, 3#32], .update [1#32] []]).toOption.isSome = true := ⟨rfl, rfl⟩

/-- The hypotheses of C51. -/
example : At hTy ⟨4, []⟩ pVal ∧ Carried hTy pVal ∧
    OpAddr (.list (.uint .w8)) (.swapRemove 0) ⟨⟨4, [1#32, 3#32]⟩, [1#8, 2#8]⟩ ∧
    OpSync (.list (.uint .w8)) (.swapRemove 0) ⟨⟨4, [1#32, 3#32]⟩, [1#8, 2#8]⟩ ∧ OpOnly (.list (.uint .w8)) (.swapRemove 0) := by
  refine ⟨?_, ?_, fun h => (nomatch h), fun _ => ⟨by decide, fun x hx => ?_⟩, trivial⟩
  · refine ⟨fun _ => rfl, ⟨rfl, fun _ _ _ => trivial⟩, ⟨rfl, by decide, ?_⟩, ⟨fun _ => rfl, ⟨rfl, fun _ _ _ => trivial⟩, trivial⟩, trivial⟩
    intro e he
    cases List.mem_singleton.1 he
    exact ⟨rfl, fun _ _ _ => trivial⟩
  · refine ⟨fun _ _ => trivial, ⟨fun e he => ?_, by decide⟩, ⟨fun _ _ => trivial, trivial⟩, trivial⟩
    cases List.mem_singleton.1 he
    exact ⟨by decide, by decide, fun _ _ => trivial⟩
  · cases hx
    show (leb 2).length < _
    rw [leb_eq_lebF]; decide

end Steit
