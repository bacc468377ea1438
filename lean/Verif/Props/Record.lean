import Verif.Lemmas.Record
import Verif.Props.Sync

/-!
# What calls put in the log: property C84

`Records` is in `Verif/Spec/Record.lean`.
-/

namespace Steit
open Spec Prog

theorem address_under_length (p : List U32) (e : Entry) : (address (under p e)).length = p.length + (address e).length := by
  cases e <;> simp [under, address]

/-- The bounds on what one call logs. -/
def Brief (n : Nat) (es : List Entry) : Prop := es.length ≤ 2 ∧ ∀ e ∈ es, (address e).length ≤ n

theorem Brief.nil {n : Nat} : Brief n [] := ⟨by decide, fun _ h => nomatch h⟩

theorem Brief.one {n : Nat} {e : Entry} (h : (address e).length ≤ n) : Brief n [e] :=
  ⟨Nat.succ_le_succ (Nat.zero_le _), fun x hx => by rw [List.mem_singleton.1 hx]; exact h⟩

theorem Brief.nested {n : Nat} {es : List Entry} (h : Brief n es) (k : U32) : Brief (n + 1) (es.map (under [k])) := by
  refine ⟨by rw [List.length_map]; exact h.1, fun e he => ?_⟩
  obtain ⟨e', he', rfl⟩ := List.mem_map.1 he
  rw [address_under_length]
  have := h.2 e' he'
  simp only [List.length_singleton]
  omega

theorem Brief.mono {n n' : Nat} {es : List Entry} (h : Brief n es) (hn : n ≤ n') : Brief n' es :=
  ⟨h.1, fun e he => Nat.le_trans (h.2 e he) hn⟩

/-- A setter logs one entry. -/
theorem set_one_fields : (fs : Fields) → ∀ op v es v', fs.isSet op = true → RecordsFields fs op v es v' → es.length = 1
  | .nil, op => nomatch op
  | .cons _ _ _ _, .inl (.inner _) => fun _ _ _ h => nomatch h
  | .cons _ _ _ _, .inl (.set _) => fun _ _ _ _ h => by cases h; rfl
  | .cons _ _ _ _, .inl (.setWith _) => fun _ _ _ _ h => by cases h; rfl
  | .cons _ _ _ fs, .inr op => fun v es v' hs h => set_one_fields fs op v.2 es v'.2 hs h

theorem set_one_variant : (vs : Variants) → ∀ op v es v', vs.isSet op = true → RecordsVariant vs op v es v' → es.length ≤ 1
  | .nil, op => nomatch op
  | .cons _ _ fs vs, op => fun v es v' hs h => by
    rcases op with op | op <;> rcases v with v | v <;> rcases v' with v' | v' <;> first
      | (cases h; exact Nat.zero_le _)
      | (obtain ⟨es', h1, rfl⟩ := h
         exact Nat.le_of_eq ((List.length_map _).trans (set_one_fields fs op v es' v' hs h1)))
      | exact set_one_variant vs op v es v' hs h

mutual
theorem records_brief : (t : Ty) → ∀ op v es v', Records t op v es v' → Brief (levels t) es
  | .uint _, op => nomatch op
  | .sint _, op => nomatch op
  | .bool, op => nomatch op
  | .string, op => nomatch op
  | .bytes, op => nomatch op
  | .vec _, op => nomatch op
  | .array _ _, op => nomatch op
  | .tuple _, op => nomatch op
  | .option _, op => nomatch op
  | .hashMap _ _, op => nomatch op
  | .struct false _ _, op => nomatch op
  | .enum false _ _ _, op => nomatch op
  | .box t, op => fun v es v' h => records_brief t op v es v' h
  | .list t, op => fun v es v' h => by
    cases op with
    | item i op =>
      rcases h with ⟨_, rfl⟩ | ⟨x, x', es', _, _, h, rfl⟩
      · exact .nil
      · exact (records_brief t op x es' x' h).nested _
    | push x => cases h; exact .one (Nat.zero_le _)
    | pushWith f => obtain ⟨x, _, rfl⟩ := h; exact .one (Nat.zero_le _)
    | pop =>
      simp only [Records] at h
      subst h
      split
      · exact .nil
      · exact .one (Nat.zero_le _)
    | swapRemove i =>
      simp only [Records] at h
      split at h
      · obtain ⟨x, _, rfl⟩ := h
        refine ⟨Nat.le_refl _, fun e he => ?_⟩
        simp only [List.mem_cons, List.not_mem_nil, or_false] at he
        rcases he with rfl | rfl
        · exact Nat.zero_le _
        · exact Nat.succ_le_succ (Nat.zero_le _)
      · subst h
        split
        · exact .one (Nat.zero_le _)
        · exact .nil
  | .map _ t, op => fun v es v' h => by
    cases op with
    | value k op =>
      rcases h with ⟨_, rfl⟩ | ⟨x, x', es', _, _, h, rfl⟩
      · exact .nil
      · exact (records_brief t op x es' x' h).nested _
    | insert k x => cases h; exact .one (Nat.succ_le_succ (Nat.zero_le _))
    | insertWith k f => obtain ⟨x, _, rfl⟩ := h; exact .one (Nat.succ_le_succ (Nat.zero_le _))
    | remove k => cases h; exact .one (Nat.zero_le _)
  | .struct true _ fs, op => fun v es v' h => records_brief_fields fs op v.fields es v'.fields h
  | .enum true cached fs vs, op => fun v es v' h => by
    obtain ⟨es', he, h⟩ := h
    generalize hu : (if switches (.cons 0#32 cached fs vs) op v.val then initialVariant (.cons 0#32 cached fs vs) op else v.val) = u
      at h
    have h1 : Brief (levels (.enum true cached fs vs)) es' := by
      rcases v' with ⟨_, x' | x'⟩ <;> rcases op with op | op <;> rcases u with u | u <;> first
        | (cases h; exact .nil)
        | (obtain ⟨es'', h, rfl⟩ := h
           exact ((records_brief_fields fs op u es'' x' h).nested _).mono (Nat.le_max_left _ _))
        | exact (records_brief_variant vs op u es' x' h).mono (Nat.le_max_right _ _)
    by_cases hs : switches (.cons 0#32 cached fs vs) op v.val = true
    · rw [if_pos hs] at he
      have h2 : es'.length ≤ 1 := by
        have hset : (Variants.cons 0#32 cached fs vs).isSet op = true := by
          unfold switches at hs
          exact (Bool.and_eq_true_iff.1 hs).1
        refine set_one_variant (.cons 0#32 cached fs vs) op u es' v'.val hset ?_
        rcases v' with ⟨_, x' | x'⟩ <;> rcases op with op | op <;> rcases u with u | u <;> exact h
      subst he
      refine ⟨Nat.succ_le_succ h2, fun e he => ?_⟩
      rcases List.mem_cons.1 he with rfl | he
      · exact Nat.zero_le _
      · exact h1.2 e he
    · rw [if_neg hs] at he
      subst he
      exact h1

theorem records_brief_fields : (fs : Fields) → ∀ op v es v', RecordsFields fs op v es v' → Brief (levelsFields fs) es
  | .nil, op => nomatch op
  | .cons _ _ t _, .inl (.inner op) => fun v _ v' h => by
    obtain ⟨es', h, rfl⟩ := h
    exact ((records_brief t op v.1 es' v'.1 h).nested _).mono (Nat.le_max_left _ _)
  | .cons _ _ _ _, .inl (.set _) => fun _ _ _ h => by
    cases h
    exact .one (Nat.le_trans (Nat.succ_le_succ (Nat.zero_le _)) (Nat.le_max_left _ _))
  | .cons _ _ _ _, .inl (.setWith _) => fun _ _ _ h => by
    cases h
    exact .one (Nat.le_trans (Nat.succ_le_succ (Nat.zero_le _)) (Nat.le_max_left _ _))
  | .cons _ _ _ fs, .inr op => fun v es v' h => (records_brief_fields fs op v.2 es v'.2 h).mono (Nat.le_max_right _ _)

theorem records_brief_variant : (vs : Variants) → ∀ op v es v', RecordsVariant vs op v es v' → Brief (levelsVariants vs) es
  | .nil, op => nomatch op
  | .cons _ _ fs vs, op => fun v es v' h => by
    rcases op with op | op <;> rcases v with v | v <;> rcases v' with v' | v' <;> first
      | (cases h; exact .nil)
      | (obtain ⟨es', h1, rfl⟩ := h
         exact ((records_brief_fields fs op v es' v' h1).nested _).mono (Nat.le_max_left _ _))
      | exact (records_brief_variant vs op v es v' h).mono (Nat.le_max_right _ _)
end

/-- C84: a call of any kind, at any depth, within the side conditions of C24, logs exactly the entries `Records` names, and no others:
a setter an update of the one field with the encoding of the new value, a push the new item, `pop` and `remove` an entry without
a payload, `swap_remove` a pop and the one item that moved, a call on something inside what that call logs, with a longer path; a setter
that makes another variant current before that the variant with default fields. -/
theorem C84_exact (t : Ty) (ht : t.WF) (m : Mode) (op : t.Op) (v : t.El) (rt : Rt) (w : World) (hv : At t rt v)
    (hc : Carried t v) (ha : OpAddr t op v) (ho : OpSync t op v) :
    ∃ v' w' es, t.run m op v w = (.ok v', w') ∧ Logged rt w w' es ∧ Records t op v es v' :=
  recs t ht m op v rt w hv hc ha ho

theorem calls_record (t : Ty) (ht : t.WF) (m : Mode) : ∀ (ops : List t.Op) (v : t.El) (rt : Rt) (w : World),
    At t rt v → Carried t v → CallsSync t m ops v w →
    ∃ v' w' es, calls t m ops v w = (.ok v', w') ∧ Logged rt w w' es ∧ RecordsCalls t ops v es v'
  | [], v, rt, w, _, _, _ => ⟨v, w, [], rfl, .refl rfl, rfl, rfl⟩
  | op :: ops, v, rt, w, hv, hc, ⟨ha, ho, hn⟩ => by
    obtain ⟨v1, w1, es1, h1, hl1, hr1⟩ := recs t ht m op v rt w hv hc ha ho
    have hv1 := at_run t ht m op v rt w v1 w1 hv ha h1
    obtain ⟨_, _, _, h1', hc1, _⟩ := tells t ht m op v rt w hv hc ha ho
    cases h1.symm.trans h1'
    obtain ⟨v2, w2, es2, h2, hl2, hr2⟩ := calls_record t ht m ops v1 rt w1 hv1 hc1 (hn v1 w1 h1)
    exact ⟨v2, w2, es1 ++ es2, (Exec.bind_of h1).trans h2, hl1.trans hl2, v1, es1, es2, hr1, hr2, rfl⟩

/-- C84, histories: any number of calls log what they log each, in order. -/
theorem C84_history (t : Ty) (ht : t.WF) (m : Mode) (ops : List t.Op) (v : t.El) (rt : Rt) (w : World)
    (hv : At t rt v) (hc : Carried t v) (hops : CallsSync t m ops v w) :
    ∃ v' w' es, calls t m ops v w = (.ok v', w') ∧ Logged rt w w' es ∧ RecordsCalls t ops v es v' :=
  calls_record t ht m ops v rt w hv hc hops

/-- C84, the number of entries and the length of their paths do not depend on the data: a call logs at most two entries, whatever the
object holds and however many items there are, with paths no longer than types nest. -/
theorem C84_brief (t : Ty) (ops : List t.Op) (v v' : t.El) (es : List Entry) (h : RecordsCalls t ops v es v') :
    es.length ≤ 2 * ops.length ∧ ∀ e ∈ es, (address e).length ≤ levels t := by
  induction ops generalizing v es with
  | nil => cases h.1; exact ⟨Nat.zero_le _, fun _ h => nomatch h⟩
  | cons op ops ih =>
    obtain ⟨u, es1, es2, h1, h2, rfl⟩ := h
    have b := records_brief t op v es1 u h1
    have c := ih u es2 h2
    refine ⟨?_, fun e he => ?_⟩
    · have := b.1
      rw [List.length_append, List.length_cons]
      omega
    · rcases List.mem_append.1 he with he | he
      · exact b.2 e he
      · exact c.2 e he

theorem entryBytes_le {e : Entry} (h : Fits e) : (entryBytes e).length ≤ 5 * (address e).length + (payload e).length + 45 := by
  have h1 := encode_entry_le e h
  have h2 := entry_small h
  have h5 := leb_length_le 4 (encode logEntryTy e.toEl).length (by omega)
  unfold entryBytes
  simp only [framed, if_neg (show ¬ (2 : Nat) = 0 by decide), List.length_append]
  omega

/-- C84, bytes: the log of any number of calls on a root, as it is sent, takes the payloads and per call at most 90 bytes and ten for
each level types nest. -/
theorem C84_bytes (t : Ty) (ht : t.WF) (m m' : Mode) (μ : Nat → Mem) (ops : List t.Op) (v : t.El) (id : Nat) (w : World)
    (hv : At t ⟨id, []⟩ v) (hc : Carried t v) (hops : CallsSync t m ops v w) (hw : w.loggers id = ⟨0, []⟩) :
    ∃ v' w', calls t m ops v w = (.ok v', w') ∧ RecordsCalls t ops v (w'.loggers id).entries v' ∧
      ((∀ e ∈ (w'.loggers id).entries, Fits e) → ∃ bytes, (BufferLogger.mk (w'.loggers id).entries).bytes m' μ = .ok bytes ∧
        bytes.length ≤ payloads (w'.loggers id).entries + ops.length * (10 * levels t + 90)) := by
  obtain ⟨v', w', es, h1, hl, hr⟩ := calls_record t ht m ops v ⟨id, []⟩ w hv hc hops
  have hlog : w'.loggers id = ⟨0, es⟩ := by
    have := hl
    unfold Logged at this
    rw [map_under_nil, hw] at this
    exact this.trans (by simp [appended])
  refine ⟨v', w', h1, by rw [hlog]; exact hr, fun hf => ⟨_, bytes_eq m' μ _ hf, ?_⟩⟩
  rw [hlog] at hf ⊢
  have hb := C84_brief t ops v v' es hr
  have key : ∀ es : List Entry, (∀ e ∈ es, Fits e) → (∀ e ∈ es, (address e).length ≤ levels t) →
      (es.flatMap entryBytes).length ≤ payloads es + es.length * (5 * levels t + 45) := by
    intro es
    induction es with
    | nil => intro _ _; exact Nat.zero_le _
    | cons e es ih =>
      intro h1 h2
      have a := ih (fun x hx => h1 x (by simp [hx])) (fun x hx => h2 x (by simp [hx]))
      have b := entryBytes_le (h1 e (by simp))
      have c := h2 e (by simp)
      simp only [List.flatMap_cons, List.length_append, payloads, List.map_cons, List.sum_cons, List.length_cons,
        Nat.succ_mul] at a ⊢
      omega
  have := key es hf hb.2
  have h2 : es.length * (5 * levels t + 45) ≤ (2 * ops.length) * (5 * levels t + 45) := Nat.mul_le_mul_right _ hb.1
  have h3 : (2 * ops.length) * (5 * levels t + 45) = ops.length * (10 * levels t + 90) := by
    rw [Nat.mul_comm 2, Nat.mul_assoc, Nat.mul_add]
    congr 2
    omega
  show (es.flatMap entryBytes).length ≤ payloads es + _
  omega

/-! ### Not vacuous -/

/-- The history of C24's example: a push, an `insert_with`, a call on the inserted value, a setter switching the variant of an enum, a
`swap_remove` inside it and a map removal. -/
example (m' : Mode) (μ : Nat → Mem) :
    ∃ v' w', calls hTy .debug hOps (hVal [] [] (hA 0)) hWorld = (.ok v', w') ∧
      RecordsCalls hTy hOps (hVal [] [] (hA 0)) (w'.loggers 4).entries v' ∧
      ((∀ e ∈ (w'.loggers 4).entries, Fits e) → ∃ bytes, (BufferLogger.mk (w'.loggers 4).entries).bytes m' μ = .ok bytes ∧
        bytes.length ≤ payloads (w'.loggers 4).entries + 6 * (10 * 4 + 90)) :=
  C84_bytes hTy hTy_wf .debug m' μ hOps (hVal [] [] (hA 0)) 4 hWorld (hVal_at 4) ((carried_init hTy).1 ⟨4, []⟩)
    (hOps_ok _) rfl

/-- A setter that makes another variant current logs that variant, with an empty list, and then the list. -/
example (v' : hEnum.El) (y : (Ty.list (.uint .w8)).El) (es : List Entry) (hv : v'.val = .inr (.inl (y, ()))) :
    Records hEnum (.inr (.inl (.inl (.set ⟨Rt.dflt, [1#8]⟩)))) (hA 9) es v' ↔
      es = [.update [] (leb 1 ++ []), .update [1#32, 5#32] (leb 1)] := by
  constructor
  · rintro ⟨es', rfl, h⟩
    rw [hv] at h
    obtain ⟨es'', h, rfl⟩ := h
    cases h
    simp [switches, Variants.isSet, Fields.isSet, FieldOp.isSet, isCurrent, hA, encodeVariant, initialVariant, initialFields, encodeFields,
      leftOut, initial, encode, under]
    exact List.append_nil (leb 1)
  · rintro rfl
    refine ⟨[.update [1#32, 5#32] (leb 1)], ?_, ?_⟩
    · simp [switches, Variants.isSet, Fields.isSet, FieldOp.isSet, isCurrent, hA, encodeVariant, initialVariant, initialFields, encodeFields,
        leftOut, initial, encode, under]
    · rw [hv]
      exact ⟨[.update [5#32] (leb 1)], congrArg (fun b => [Entry.update [5#32] b]) (List.append_nil (leb 1)).symm, rfl⟩

/-- `swap_remove` sends the item that moved and nothing else; an update of the whole list in place of these entries would not do. -/
example (v' : (Ty.list (.uint .w8)).El) (es : List Entry) :
    Records (.list (.uint .w8)) (.swapRemove 0) ⟨Rt.dflt, [7#8, 8#8, 9#8]⟩ es v' ↔ es = [.listPop [], .update [0#32] (leb 9)] := by
  constructor
  · intro h
    simp only [Records] at h
    rw [if_pos (by decide)] at h
    obtain ⟨x, hx, rfl⟩ := h
    cases hx
    rfl
  · rintro rfl
    simp only [Records]
    rw [if_pos (by decide)]
    exact ⟨9#8, rfl, rfl⟩

end Steit
