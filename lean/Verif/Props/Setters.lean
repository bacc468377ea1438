import Verif.Lemmas.Setter
import Verif.Props.Sync

/-!
# Generated setters: properties C38 and C39

The specification (`setField`, `setVariant`, `setterEntries`, ...) is in `Verif/Spec/Setter.lean`.
-/

namespace Steit
open Spec

/-! ## C39 -/

theorem under_inj {p : List U32} {e e' : Entry} (h : under p e = under p e') : e = e' := by
  cases e <;> cases e' <;> simp_all [under]

theorem map_under_inj {p : List U32} : ∀ {es es' : List Entry}, es.map (under p) = es'.map (under p) → es = es'
  | [], [], _ => rfl
  | [], _ :: _, h => nomatch h
  | _ :: _, [], h => nomatch h
  | _ :: _, _ :: _, h => by
    simp only [List.map_cons, List.cons.injEq] at h
    rw [under_inj h.1, map_under_inj h.2]

/-- A world with nothing logged or paused. -/
def blank : World := ⟨fun _ => ⟨0, []⟩, fun _ _ => 0⟩

theorem logged_blank {rt : Rt} {w' : World} {es es' : List Entry} (h : Logged rt blank w' es) (h' : Logged rt blank w' es') :
    es = es' := by
  unfold Logged at h h'
  rw [h] at h'
  have := congrArg LoggerSt.entries h'
  simp only [appended, blank, if_true, List.nil_append] at this
  exact map_under_inj this

theorem enum_setter_run (cached : Bool) (fs : Fields) (vs : Variants) (ht : (Ty.enum true cached fs vs).WF) (m : Mode)
    (op : (Ty.enum true cached fs vs).Op) (v : (Ty.enum true cached fs vs).El) (rt : Rt) (w : World)
    (hv : At (.enum true cached fs vs) rt v) (hs : SetsVariant (.cons 0#32 cached fs vs) op)
    (hd : isCurrent (.cons 0#32 cached fs vs) op v.val = false →
      (encodeVariant (.cons 0#32 cached fs vs) (initialVariant (.cons 0#32 cached fs vs) op)).length < 2 ^ 32) :
    ∃ v' w', (Ty.enum true cached fs vs).run m op v w = (.ok v', w') ∧
      Same (.enum true cached fs vs) v' ⟨Rt.dflt, setVariant (.cons 0#32 cached fs vs) op v.val⟩ ∧
      Logged rt w w' (setterEntries (.cons 0#32 cached fs vs) op v.val) := by
  have hwf : Variants.WF (allVariants cached fs vs) true := ⟨by decide, ht.1, ht.2.1, ht.2.2.2.2⟩
  have hn : (allVariants cached fs vs).tags.Nodup := List.nodup_cons.2 ⟨ht.2.2.2.1, ht.2.2.1⟩
  have hset := setsVariant_isSet (allVariants cached fs vs) op hs
  rw [at_enum_iff] at hv
  rw [enum_run_eq]
  cases hcur : isCurrent (allVariants cached fs vs) op v.val with
  | true =>
    have htag := (isCurrent_iff _ hn op v.val).1 hcur
    obtain ⟨x, w', h1, h2, h3⟩ := run_setVariant (allVariants cached fs vs) hwf op m rt v.val w hs hcur
    refine ⟨{ v with val := x }, w', ?_, enum_same.2 h2, ?_⟩
    · rw [runEnum_stay (fun h => h.1 htag)]
      refine Exec.bind_of (f := fun val => (pure { v with val } : Exec (EnumV (fs.El ⊕ vs.El)))) ?_
      rw [hv.1, htag]
      exact h1
    · unfold setterEntries
      rw [if_pos hcur]
      exact h3
  | false =>
    have htag : ((allVariants cached fs vs).dict true).tagOf v.val ≠ (allVariants cached fs vs).opTag op := fun h => by
      rw [(isCurrent_iff _ hn op v.val).2 h] at hcur
      cases hcur
    obtain ⟨x, hx, hxs⟩ := ctor_initial (allVariants cached fs vs) hn op
      (some (rt.nested ((allVariants cached fs vs).opTag op)))
    have hpar : Exec.ofExcept v.rt.parent w = (.ok rt, w) := by
      rw [hv.1, Rt.parent_nested']
      rfl
    have hsame : strip (.enum true cached fs vs) ⟨rt.nested ((allVariants cached fs vs).opTag op), x⟩ =
        strip (.enum true cached fs vs) ⟨Rt.dflt, initialVariant (allVariants cached fs vs) op⟩ := enum_same.2 hxs
    have henc : encode (.enum true cached fs vs) ⟨rt.nested ((allVariants cached fs vs).opTag op), x⟩ =
        encodeVariant (allVariants cached fs vs) (initialVariant (allVariants cached fs vs) op) := by
      rw [encode_same hsame, encode_enum]
    have hsend : Sendable (.enum true cached fs vs) ⟨rt.nested ((allVariants cached fs vs).opTag op), x⟩ :=
      ⟨carried_enum.2 (carried_ctor _ true _ _ x hx), by rw [henc]; exact hd hcur⟩
    obtain ⟨w1, h1, h2⟩ := logUpdate_run ht rt m hsend w
    have hcur' : isCurrent (allVariants cached fs vs) op x = true :=
      (isCurrent_iff _ hn op x).2 (((variantsAny _ true hwf).ctor_some rfl _ rt x hx).2)
    obtain ⟨y, w', h3, h4, h5⟩ := run_setVariant (allVariants cached fs vs) hwf op m rt x w1 hs hcur'
    refine ⟨⟨rt.nested ((allVariants cached fs vs).opTag op), y⟩, w', ?_, enum_same.2 (h4.trans ?_), ?_⟩
    · rw [runEnum_switch ⟨htag, hset⟩ hpar hx h1]
      exact Exec.bind_of (f := fun val => (pure ⟨rt.nested ((allVariants cached fs vs).opTag op), val⟩ :
        Exec (EnumV (fs.El ⊕ vs.El)))) h3
    · rw [strip_setVariant _ op _ _ hxs, ← setVariant_initial (allVariants cached fs vs) op v.val hcur]
    · unfold setterEntries
      rw [if_neg (by rw [show isCurrent (.cons 0#32 cached fs vs) op v.val = false from hcur]; decide)]
      rw [henc] at h2
      exact h2.trans h5

/-- C39: a setter of a variant's field, called on any enum value. It leaves the enum in that variant, with the field equal to
the value given and the other fields unchanged if the variant was current, default otherwise (`setVariant`). It logs one
entry in the first case and two in the second (`setterEntries`). And these entries make every replica follow. -/
theorem C39_enum_setter (cached : Bool) (fs : Fields) (vs : Variants) (ht : (Ty.enum true cached fs vs).WF) (m : Mode)
    (op : (Ty.enum true cached fs vs).Op) (v : (Ty.enum true cached fs vs).El) (rt : Rt) (w : World)
    (hv : At (.enum true cached fs vs) rt v) (hc : Carried (.enum true cached fs vs) v)
    (hs : SetsVariant (.cons 0#32 cached fs vs) op)
    (hd : isCurrent (.cons 0#32 cached fs vs) op v.val = false →
      (encodeVariant (.cons 0#32 cached fs vs) (initialVariant (.cons 0#32 cached fs vs) op)).length < 2 ^ 32) :
    ∃ v' w', (Ty.enum true cached fs vs).run m op v w = (.ok v', w') ∧
      Same (.enum true cached fs vs) v' ⟨Rt.dflt, setVariant (.cons 0#32 cached fs vs) op v.val⟩ ∧
      At (.enum true cached fs vs) rt v' ∧
      Logged rt w w' (setterEntries (.cons 0#32 cached fs vs) op v.val) ∧
      ∀ m' r rt', At (.enum true cached fs vs) rt' r → Same (.enum true cached fs vs) r v →
        ∃ r', applyAll (Ty.enum true cached fs vs).dict m' r (setterEntries (.cons 0#32 cached fs vs) op v.val) = .ok r' ∧
          Same (.enum true cached fs vs) r' v' := by
  have hn : (allVariants cached fs vs).tags.Nodup := List.nodup_cons.2 ⟨ht.2.2.2.1, ht.2.2.1⟩
  have ha : OpAddr (.enum true cached fs vs) op v := (opAddr_enum ..).2 (setsVariant_addr (allVariants cached fs vs) op v.val hs).1
  have ho : OpSync (.enum true cached fs vs) op v := by
    refine (opSync_enum ..).2 ⟨?_, (setsVariant_addr (allVariants cached fs vs) op v.val hs).2⟩
    intro _ hne rt0 x hx
    obtain ⟨y, hy, hys⟩ := ctor_initial (allVariants cached fs vs) hn op (some rt0)
    rw [hx] at hy
    cases hy
    have : encodeVariant (allVariants cached fs vs) x =
        encodeVariant (allVariants cached fs vs) (initialVariant (allVariants cached fs vs) op) := by
      have h := encode_same (t := .enum true cached fs vs) (a := ⟨Rt.dflt, x⟩)
        (b := ⟨Rt.dflt, initialVariant (allVariants cached fs vs) op⟩) (enum_same.2 hys)
      rwa [encode_enum, encode_enum] at h
    rw [this]
    refine hd ?_
    cases hcur : isCurrent (Variants.cons 0#32 cached fs vs) op v.val with
    | false => rfl
    | true => exact absurd ((isCurrent_iff _ hn op v.val).1 hcur) hne
  obtain ⟨v', w', h1, h2, h3⟩ := enum_setter_run cached fs vs ht m op v rt w hv hs hd
  refine ⟨v', w', h1, h2, at_run _ ht m op v rt w v' w' hv ha h1, h3, ?_⟩
  intro m' r rt' hr hsame
  obtain ⟨v1, w1, k1, k2, k3⟩ := enum_setter_run cached fs vs ht m op v rt blank hv hs hd
  obtain ⟨v2, w2, es, j1, _, j3, j4⟩ := syncs _ ht m op v rt blank hv hc ha ho
  rw [k1] at j1
  cases j1
  rw [logged_blank k3 j3]
  obtain ⟨r', q1, q2⟩ := j4 m' r rt' hr hsame
  exact ⟨r', applyAll_of_applies q1, q2.trans (k2.trans h2.symm)⟩

/-- C39 for structs: a setter changes its field and nothing else, logs one entry, and replicas follow. -/
theorem C39_struct_setter (cached : Bool) (fs : Fields) (ht : (Ty.struct true cached fs).WF) (m : Mode)
    (op : (Ty.struct true cached fs).Op) (v : (Ty.struct true cached fs).El) (rt : Rt) (w : World)
    (hv : At (.struct true cached fs) rt v) (hc : Carried (.struct true cached fs) v) (hs : SetsField fs op) :
    ∃ v' w', (Ty.struct true cached fs).run m op v w = (.ok v', w') ∧
      Same (.struct true cached fs) v' ⟨Rt.dflt, setField fs op v.fields⟩ ∧ At (.struct true cached fs) rt v' ∧
      Logged rt w w' [setterEntry fs op] ∧
      ∀ m' r rt', At (.struct true cached fs) rt' r → Same (.struct true cached fs) r v →
        ∃ r', applyAll (Ty.struct true cached fs).dict m' r [setterEntry fs op] = .ok r' ∧
          Same (.struct true cached fs) r' v' := by
  have hrun : ∀ w, ∃ v' w', (Ty.struct true cached fs).run m op v w = (.ok v', w') ∧
      Same (.struct true cached fs) v' ⟨Rt.dflt, setField fs op v.fields⟩ ∧ Logged rt w w' [setterEntry fs op] := by
    intro w
    obtain ⟨x, w', h1, h2, h3⟩ := run_setField fs ht.2 op m v.rt v.fields w hs
    rw [hv.1 rfl] at h3
    exact ⟨{ v with fields := x }, w', Exec.bind_of (f := fun fields => (pure { v with fields } : Exec (StructV fs.El))) h1,
      congrArg (StructV.mk Rt.dflt) h2, h3⟩
  have ha : OpAddr (.struct true cached fs) op v := (setsField_addr fs op v.fields hs).1
  have ho : OpSync (.struct true cached fs) op v := (setsField_addr fs op v.fields hs).2
  obtain ⟨v', w', h1, h2, h3⟩ := hrun w
  refine ⟨v', w', h1, h2, at_run _ ht m op v rt w v' w' hv ha h1, h3, ?_⟩
  intro m' r rt' hr hsame
  obtain ⟨v1, w1, k1, k2, k3⟩ := hrun blank
  obtain ⟨v2, w2, es, j1, _, j3, j4⟩ := syncs _ ht m op v rt blank hv hc ha ho
  rw [k1] at j1
  cases j1
  rw [logged_blank k3 j3]
  obtain ⟨r', q1, q2⟩ := j4 m' r rt' hr hsame
  exact ⟨r', applyAll_of_applies q1, q2.trans (k2.trans h2.symm)⟩

/-- The hypotheses of `C39_enum_setter`, with `hEnum` in variant 0: setting a field of variant 1 switches. -/
example : At hEnum ⟨4, [2#32]⟩ (hA 9) ∧ Carried hEnum (hA 9) ∧ hEnum.WF ∧
    SetsVariant (.cons 0#32 false (.cons 0#32 {} (.uint .w32) .nil) (.cons 1#32 true (.cons 5#32 {} (.list (.uint .w8)) .nil) .nil))
      (.inr (.inl (.inl (.set ⟨Rt.dflt, [1#8]⟩)))) ∧
    setterEntries (.cons 0#32 false (.cons 0#32 {} (.uint .w32) .nil) (.cons 1#32 true (.cons 5#32 {} (.list (.uint .w8)) .nil) .nil))
      (.inr (.inl (.inl (.set ⟨Rt.dflt, [1#8]⟩)))) (hA 9).val = [.update [] [1#8], .update [1#32, 5#32] [1#8]] := by
  refine ⟨⟨fun _ => rfl, trivial, trivial⟩, ⟨trivial, trivial⟩, ?_, ⟨rfl, ⟨fun _ _ => trivial, ?_⟩, Rt.dflt, rfl, fun _ _ _ => trivial⟩, ?_⟩
  · exact hTy_wf.2.2.2.2.2.2.2.2.2.1
  · show (leb 1 ++ []).length < _
    rw [leb_eq_lebF]; decide
  · show [Entry.update [] (leb 1 ++ []), Entry.update [1#32, 5#32] (leb 1 ++ [])] = _
    rw [leb_eq_lebF]; decide

/-! ## C38 -/

/-- C38: the setter of a `no_state` field assigns and logs nothing, to no logger. -/
theorem C38_setter_logs_nothing (cached : Bool) (fs : Fields) (m : Mode) (op : (Ty.struct true cached fs).Op)
    (v : (Ty.struct true cached fs).El) (w : World) (hs : SetsNoState fs op) :
    (Ty.struct true cached fs).run m op v w = (.ok { v with fields := setField fs op v.fields }, w) :=
  Exec.bind_of (f := fun fields => (pure { v with fields } : Exec (StructV fs.El))) (run_noState fs op m v.rt v.fields w hs)

/-- C38: an entry of whatever kind addressed to a `no_state` field, or to anything below it, is accepted and does nothing. -/
theorem C38_entry_is_noop (cached : Bool) (fs : Fields) (ht : (Ty.struct true cached fs).WF) (tag : U32)
    (htag : tag ∈ noStateTags fs) (m : Mode) (v : (Ty.struct true cached fs).El) (e : Entry) :
    ∃ rest, applyEntry (Ty.struct true cached fs).dict m v (under [tag] e) = .ok v rest := by
  have h : ∀ path kind key bs, (Ty.struct true cached fs).dict.handle m v (tag :: path) kind key bs = .ok v bs := by
    intro path kind key bs
    show structHandle (fs.dict true) m v (tag :: path) kind key bs = _
    simp only [structHandle, handle_noState fs ht.1 tag htag]
    rfl
  cases e <;> exact ⟨_, h _ _ _ _⟩

/-- C38: so the replica of a root struct keeps the old value. Whatever the log of the source holds after the call, it held
before, and replaying it leaves the replica equal to the source as it was before the call. An update of the whole struct
(which is what an enclosing object logs when it is set), on the other hand, carries the field: afterwards the replica equals the
source again. -/
theorem C38_replica_keeps_old_value (cached : Bool) (fs : Fields) (ht : (Ty.struct true cached fs).WF) (m m' : Mode)
    (op : (Ty.struct true cached fs).Op) (v r : (Ty.struct true cached fs).El) (id : Nat) (rt' : Rt) (w : World)
    (hr : At (.struct true cached fs) rt' r) (hsame : Same (.struct true cached fs) r v)
    (hs : SetsNoState fs op) (hw : w.loggers id = ⟨0, []⟩) :
    ∃ v' w', (Ty.struct true cached fs).run m op v w = (.ok v', w') ∧ v'.fields = setField fs op v.fields ∧
      applyAll (Ty.struct true cached fs).dict m' r (w'.loggers id).entries = .ok r ∧
      (Sendable (.struct true cached fs) v' →
        ∃ r', applyAll (Ty.struct true cached fs).dict m' r [.update [] (encode (.struct true cached fs) v')] = .ok r' ∧
          Same (.struct true cached fs) r' v') := by
  refine ⟨_, w, C38_setter_logs_nothing cached fs m op v w hs, rfl, by rw [hw]; rfl, fun hx => ?_⟩
  obtain ⟨r', rest, h1, h2⟩ := follow_update ht rfl m' hr hx none
  refine ⟨r', ?_, h2⟩
  have h3 : applyEntry (Ty.struct true cached fs).dict m' r (.update [] (encode (.struct true cached fs)
      { v with fields := setField fs op v.fields })) = .ok r' rest := h1
  simp only [applyAll, h3]

/-- A struct with a `no_state` field (tag 1) beside a state field (tag 0). -/
def nsTy : Ty := .struct true true (.cons 0#32 {} (.uint .w8) (.cons 1#32 { noState := true } (.uint .w8) .nil))

/-- The hypotheses of C38, and that the replica really differs afterwards. -/
example : nsTy.WF ∧ SetsNoState (.cons 0#32 {} (.uint .w8) (.cons 1#32 { noState := true } (.uint .w8) .nil)) (.inr (.inl (.set 7#8))) ∧
    (1#32) ∈ noStateTags (.cons 0#32 {} (.uint .w8) (.cons 1#32 { noState := true } (.uint .w8) .nil)) ∧
    (setField (.cons 0#32 {} (.uint .w8) (.cons 1#32 { noState := true } (.uint .w8) .nil)) (.inr (.inl (.set 7#8)))
      (3#8, 4#8, ())) = (3#8, 7#8, ()) :=
  ⟨⟨by decide, by decide, fun _ => rfl, trivial, by decide, fun h => (nomatch h), trivial, trivial⟩, rfl, by decide, rfl⟩

end Steit
