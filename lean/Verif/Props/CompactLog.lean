import Verif.Props.Compact
import Verif.Lemmas.CompactFound

/-!
# Logs made shorter without knowledge of the state: property C85

`C85_overwritten` is about an object the replica has. Here this is seen from the log, so a log can be made shorter by a program that has
nothing but the log, for any number of objects.
-/

namespace Steit
open Spec Prog

theorem applies_known {t : Ty} (ht : t.WF) (hs : t.isState = true) {rt : Rt} (m : Mode) {p : List U32} {es : List Entry}
    (hes : ∀ e ∈ es, Within p e ∨ Aside p e) {e : Entry} (he : Erases p e) {later : List Entry} {v v' : t.El} (hk : Known t v p)
    (hv : At t rt v) (h : Applies (t.dict.handle m) v (es ++ e :: later) v') :
    Applies (t.dict.handle m) v (without p es ++ e :: later) v' := by
  rcases hk with (⟨s, u, put, hp⟩ | hd) | ⟨p0, vtag, cached, fs, vs, u, put, rfl, hp, htag⟩
  · exact applies_compact ht hs m hes he hp hv h
  · obtain ⟨v1, h1, h2⟩ := h.split
    exact (applies_deaf ht hs m hes hd hv h1).trans h2
  · obtain ⟨v1, h1, h2⟩ := h.split
    obtain ⟨h3, u1, put1, h4, -⟩ := variant_applies ht hs hv hp htag hes h1
    obtain ⟨v2, r, h5, -⟩ := h2
    rw [← h3]
    exact applies_compact ht hs m (fun e he => within_or_aside (hes e he)) (variant_erases ht h4 he h5) hp hv h

theorem applies_omits {t : Ty} (ht : t.WF) (hs : t.isState = true) {rt : Rt} (m : Mode) {es es' : List Entry} (ho : Omits es es')
    {v v' : t.El} (hv : At t rt v) (h : Applies (t.dict.handle m) v es v') : Applies (t.dict.handle m) v es' v' := by
  cases ho with
  | updated hes he =>
    obtain ⟨v1, h1, v2, r, h2, h3⟩ := h.split
    have hv1 := applies_at ht hs hv h1
    exact h1.trans ⟨v2, r, h2, applies_known ht hs m hes he (.inl (found_entry h2)) (applies_at ht hs hv1 (es := [_]) ⟨v2, r, h2, rfl⟩) h3⟩
  | @existed before es later p x e hx hn hes he =>
    obtain ⟨v1, h1, h2⟩ := h.split
    have hv1 := applies_at ht hs hv h1
    have hk : Known t v1 p := by
      obtain ⟨v2, r, h3, -⟩ := h2
      exact known_entry hx hn h3
    have h4 := applies_known ht hs m (es := x :: es) (fun y hy => by
      rcases List.mem_cons.1 hy with rfl | hy
      · exact .inl hx
      · exact hes y hy) he hk hv1 h2
    have : without p (x :: es) = without p es := List.filter_cons_of_neg (by simpa using hx)
    rw [this] at h4
    exact h1.trans h4

theorem applies_compacted {t : Ty} (ht : t.WF) (hs : t.isState = true) {rt : Rt} (m : Mode) {es es' : List Entry} (ho : Compacted es es')
    {v v' : t.El} (hv : At t rt v) (h : Applies (t.dict.handle m) v es v') : Applies (t.dict.handle m) v es' v' := by
  induction ho with
  | refl => exact h
  | step _ ho ih => exact applies_omits ht hs m ho hv ih

theorem omits_sub {es es' : List Entry} (h : Omits es es') : ∀ e ∈ es', e ∈ es := by
  have key : ∀ {p : List U32} {es : List Entry} {e : Entry}, e ∈ without p es → e ∈ es := mem_without
  cases h <;>
  · intro x hx
    simp only [List.mem_append, List.mem_cons] at hx ⊢
    rcases hx with hx | hx
    · exact .inl hx
    · first
      | rcases hx with hx | hx | hx
        · exact .inr (.inl hx)
        · exact .inr (.inr (.inl (key hx)))
        · exact .inr (.inr (.inr hx))
      | rcases hx with hx | hx
        · exact .inr (.inr (.inl (key hx)))
        · exact .inr (.inr (.inr hx))

theorem compacted_sub {es es' : List Entry} (h : Compacted es es') : ∀ e ∈ es', e ∈ es := by
  induction h with
  | refl => exact fun _ h => h
  | step _ ho ih => exact fun e he => ih e (omits_sub ho e he)

/-- C85: overwritten entries are left out of a log any number of times, for any objects, without looking at any state (`Compacted`). Every
replica that can replay the log can replay the shorter one, with exactly the same result. -/
theorem C85_compacted (t : Ty) (ht : t.WF) (hs : t.isState = true) (m m' : Mode) (μ μ' : Nat → Mem) (rt : Rt) (es es' : List Entry)
    (ho : Compacted es es') (hfit : ∀ x ∈ es, Fits x) (log short : Bytes) (hlog : (BufferLogger.mk es).bytes m' μ = .ok log)
    (hshort : (BufferLogger.mk es').bytes m' μ' = .ok short) (v v' : t.El) (r : Bytes) (hv : At t rt v)
    (h : replay t.dict m v log = .ok v' r) : replay t.dict m v short = .ok v' r := by
  have hfit' : ∀ x ∈ es', Fits x := fun x hx => hfit x (compacted_sub ho x hx)
  rw [bytes_eq m' μ ⟨_⟩ hfit] at hlog
  rw [bytes_eq m' μ' ⟨_⟩ hfit'] at hshort
  cases hlog
  cases hshort
  have hr := replay_root h
  rw [replay_applies hfit hr] at h
  exact (replay_applies hfit' hr).2 ⟨applies_compacted ht hs m ho hv h.1, h.2⟩

/-- C85: a replica that is sent a shorter log in place of the log of a history of calls equals the source. -/
theorem C85_compacted_replica (t : Ty) (ht : t.WF) (hs : t.isState = true) (hpr : shape t ≠ .prim)
    (hb : ¬ (shape t = .enum ∧ isBox t = true)) (m m' : Mode) (μ : Nat → Mem) (id id' : Nat) (ops : List t.Op) (v r : t.El) (w : World)
    (hv : At t ⟨id, []⟩ v) (hc : Carried t v) (hr : At t ⟨id', []⟩ r) (hsame : Same t r v) (hw : w.loggers id = ⟨0, []⟩)
    (hops : CallsSync t m ops v w) :
    ∃ v' w', calls t m ops v w = (.ok v', w') ∧ ∀ es', Compacted (w'.loggers id).entries es' →
      (∀ e ∈ (w'.loggers id).entries, Fits e) →
      ∃ short r', (BufferLogger.mk es').bytes m μ = .ok short ∧ replay t.dict m' r short = .ok r' [] ∧ t.eq r' v' = true := by
  obtain ⟨v', w', h1, -, -, -, h2⟩ := C24_replica_follows t ht hs hpr hb m m' μ id id' ops v r w hv hc hr hsame hw hops
  refine ⟨v', w', h1, fun es' ho hfit => ?_⟩
  obtain ⟨bytes, r', h3, h4, -, h5, -⟩ := h2 hfit
  have hshort := bytes_eq m μ ⟨es'⟩ (fun x hx => hfit x (compacted_sub ho x hx))
  exact ⟨_, r', hshort, C85_compacted t ht hs m' m μ μ _ _ es' ho hfit bytes _ h3 hshort r r' [] hr h4, h5⟩

/-! ## Not vacuous -/

/-- A value is put into a map, changed and removed; a field is set three times; another value is put into the map, changed, replaced. -/
abbrev wordyLog : List Entry := [.update [1#32, 5#32] [0#8, 0#8, 2#8], .update [0#32] [1#8], .update [1#32, 5#32, 0#32, 0#32] [6#8],
  .update [0#32] [2#8], .update [1#32, 6#32] [1#8], .mapRemove [1#32] 5#32, .update [1#32, 6#32] [0#8, 0#8, 3#8], .update [0#32] [9#8]]

/-- What can be left out of it: the change of the first value and the second value of the field. -/
abbrev terseLog : List Entry := [.update [1#32, 5#32] [0#8, 0#8, 2#8], .update [0#32] [1#8], .update [1#32, 6#32] [1#8],
  .mapRemove [1#32] 5#32, .update [1#32, 6#32] [0#8, 0#8, 3#8], .update [0#32] [9#8]]

theorem wordyLog_compacted : Compacted wordyLog terseLog := by
  refine .step (.step .refl (.updated (before := []) (p := [1#32, 5#32]) (b := [0#8, 0#8, 2#8])
    (es := [.update [0#32] [1#8], .update [1#32, 5#32, 0#32, 0#32] [6#8], .update [0#32] [2#8], .update [1#32, 6#32] [1#8]])
    (e := .mapRemove [1#32] 5#32) (later := [.update [1#32, 6#32] [0#8, 0#8, 3#8], .update [0#32] [9#8]]) ?_ ⟨[], rfl⟩))
    (.updated (before := [.update [1#32, 5#32] [0#8, 0#8, 2#8]]) (p := [0#32]) (b := [1#8])
    (es := [.update [0#32] [2#8], .update [1#32, 6#32] [1#8], .mapRemove [1#32] 5#32, .update [1#32, 6#32] [0#8, 0#8, 3#8]])
    (e := .update [0#32] [9#8]) (later := []) ?_ ⟨[], rfl⟩)
  all_goals
    intro e he
    simp only [List.mem_cons, List.not_mem_nil, or_false] at he
    rcases he with rfl | rfl | rfl | rfl <;> first | exact .inl (by unfold Within; decide) | exact .inr (by unfold Aside; decide)

/-- A new replica gets to the same state from both. -/
example (μ μ' : Nat → Mem) : ∃ log short v', (BufferLogger.mk wordyLog).bytes .debug μ = .ok log ∧
    (BufferLogger.mk terseLog).bytes .debug μ' = .ok short ∧ replay againTyE.dict .release (againTyE.dict.withRuntime ⟨9, []⟩) log = .ok v' [] ∧
    replay againTyE.dict .release (againTyE.dict.withRuntime ⟨9, []⟩) short = .ok v' [] := by
  have hfit : ∀ e ∈ wordyLog, CsFits e := by unfold CsFits; decide +kernel
  have hlog := bytes_eq .debug μ ⟨wordyLog⟩ fun e he => fits_of (hfit e he)
  have hshort := bytes_eq .debug μ' ⟨terseLog⟩ fun e he => fits_of (hfit e (compacted_sub wordyLog_compacted e he))
  have h : replay againTyE.dict .release (againTyE.dict.withRuntime ⟨9, []⟩) (wordyLog.flatMap entryBytes) =
      .ok ⟨⟨9, []⟩, (9#8, ⟨⟨9, [1#32]⟩, [(6#32, ⟨⟨9, [1#32, 6#32, 0#32]⟩, .inl (3#8, ())⟩)]⟩, ())⟩ [] := replayed hfit rfl rfl
  exact ⟨_, _, _, hlog, hshort, h, C85_compacted againTyE againTyE_wf rfl .release .debug μ μ' ⟨9, []⟩ _ _ wordyLog_compacted
    (fun e he => fits_of (hfit e he)) _ _ hlog hshort _ _ _ ((anyLaw againTyE againTyE_wf).at_new ⟨9, []⟩) h⟩

/-- The push of `compactOps` is an entry for a list that is seen from the log to exist. -/
example (m' : Mode) (μ : Nat → Mem) :
    ∃ v' w' i, calls hTy .debug compactOps (hVal [] [] (hA 0)) hWorld = (.ok v', w') ∧
      (w'.loggers 4).entries = [.listPush [0#32] [7#8], .update [1#32, 3#32] i, .update [0#32] [1#8]] ∧
      ∃ short r', (BufferLogger.mk [.update [1#32, 3#32] i, .update [0#32] [1#8]]).bytes .debug μ = .ok short ∧
        replay hTy.dict m' (hTy.dict.withRuntime ⟨9, []⟩) short = .ok r' [] ∧ hTy.eq r' v' = true := by
  obtain ⟨v', w', h1, h2⟩ := C85_compacted_replica hTy hTy_wf rfl (by decide) (by decide) .debug m' μ 4 9 compactOps
    (hVal [] [] (hA 0)) (hTy.dict.withRuntime ⟨9, []⟩) hWorld (hVal_at 4) ((carried_init hTy).1 ⟨4, []⟩) (hVal_at 9) rfl rfl
    (compactOps_ok hWorld)
  have he : (w'.loggers 4).entries = [.listPush [0#32] [7#8], .update [1#32, 3#32] [5#8], .update [0#32] [1#8]] := by
    have : (w'.loggers 4).entries = ((calls hTy .debug compactOps (hVal [] [] (hA 0)) hWorld).2.loggers 4).entries := by rw [h1]
    rw [this]
    decide +kernel
  obtain ⟨short, r', h3, h4, h5⟩ := h2 [.update [1#32, 3#32] [5#8], .update [0#32] [1#8]]
    (by
      rw [he]
      refine .step .refl (.existed (before := []) (p := [0#32]) (x := .listPush [0#32] [7#8]) (es := [.update [1#32, 3#32] [5#8]])
        (e := .update [0#32] [1#8]) (later := []) ⟨[], rfl⟩ (fun _ h => nomatch h) ?_ ⟨[], rfl⟩)
      intro e he
      simp only [List.mem_cons, List.not_mem_nil, or_false] at he
      subst he
      exact .inr (by unfold Aside; decide))
    (by rw [he]; unfold Fits; decide +kernel)
  exact ⟨v', w', [5#8], h1, he, short, r', h3, h4, h5⟩

end Steit
