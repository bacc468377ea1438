import Verif.Props.Compact
import Verif.Props.CSharpReplay
import Verif.Lemmas.CompactTold

/-!
# Which entries of a log can be left out, and which can change places, on a C# client: property C85

As `Props/Compact.lean`, for `StateReplayer.Replay`. The results are the same up to the order of dictionaries, of which C# promises
nothing.
-/

namespace Steit
open Spec Prog

variable {ρ : Bytes → Str}

theorem csApplyAll_compact {t : Ty} (ht : t.isCsState = true) {p : List U32} {ns : List (List U32)} {s : Ty} {es : List Entry}
    (hes : ∀ e ∈ es, Within p e ∨ Aside p e ∧ NoVariant ns e) {e : Entry} (he : Erases p e) (hen : NoVariant ns e) {later : List Entry}
    {c' : t.Cs} {x : s.Cs} {put : s.Cs → t.Cs} (hp : Place t p ns s put) (h : csApplyAll ρ t (put x) (es ++ e :: later) = .ok c') :
    ∃ c'', csApplyAll ρ t (put x) (without p es ++ e :: later) = .ok c'' ∧ Alike t c'' c' := by
  rw [csApplyAll_append] at h
  cases h1 : csApplyAll ρ t (put x) es with
  | error w => rw [h1] at h; cases h
  | ok c1 =>
    rw [h1] at h
    change csApplyAll ρ t c1 (e :: later) = .ok c' at h
    obtain ⟨x', put', -, h2, h3, h4⟩ := csApplyAll_split ht hes hp h1
    have h5 := applyAll_alike (ρ := ρ) t (e :: later) _ _ h4
    rw [h] at h5
    obtain ⟨c2, h6, h7⟩ := h5.ok_left
    have h8 := place_erases (ρ := ρ) h3 x' x he hen
    rw [slotEntry_state ht, slotEntry_state ht] at h8
    refine ⟨c2, ?_, alike_symm t _ _ h7⟩
    rw [csApplyAll_append, h2 x]
    show csApplyAll ρ t (put' x) (e :: later) = .ok c2
    rw [← h6]
    simp only [csApplyAll, h8]

/-- C85, C#: as `C85_overwritten`, up to the order of dictionaries. The client has an object at `p`; no update is addressed to a variant
of an enum around it (`NoVariant`). -/
theorem C85_client_overwritten (t : Ty) (ht : t.isCsState = true) (ρ : Bytes → Str) (m : Mode) (μ μ' : Nat → Mem) (p : List U32)
    (ns : List (List U32)) (s : Ty) (es : List Entry) (hes : ∀ e ∈ es, Within p e ∨ Aside p e ∧ NoVariant ns e) (e : Entry)
    (he : Erases p e) (hen : NoVariant ns e) (later : List Entry) (hfit : ∀ x ∈ es ++ e :: later, CsFits x) (log short : Bytes)
    (hlog : (BufferLogger.mk (es ++ e :: later)).bytes m μ = .ok log)
    (hshort : (BufferLogger.mk (without p es ++ e :: later)).bytes m μ' = .ok short) (x : s.Cs) (put : s.Cs → t.Cs)
    (hp : Place t p ns s put) (c' : t.Cs) (h : t.csReplay ρ (put x) log = .ok c') :
    ∃ c'', t.csReplay ρ (put x) short = .ok c'' ∧ Alike t c'' c' := by
  have hfit' : ∀ x ∈ without p es ++ e :: later, CsFits x := by
    intro x hx
    rcases List.mem_append.1 hx with hx | hx
    · exact hfit x (List.mem_append_left _ (mem_without hx))
    · exact hfit x (List.mem_append_right _ hx)
  rw [bytes_eq m μ ⟨_⟩ fun x hx => fits_of (hfit x hx)] at hlog
  rw [bytes_eq m μ' ⟨_⟩ fun x hx => fits_of (hfit' x hx)] at hshort
  cases hlog
  cases hshort
  change t.csReplay ρ (put x) ((es ++ e :: later).flatMap entryBytes) = _ at h
  show ∃ c'', t.csReplay ρ (put x) ((without p es ++ e :: later).flatMap entryBytes) = _ ∧ _
  rw [csReplay_eq ρ t _ _ hfit] at h
  rw [csReplay_eq ρ t _ _ hfit']
  exact csApplyAll_compact ht hes he hen hp h

/-- C85, C#: as `C85_reorder`, up to the order of dictionaries. (With the two logs exchanged it is the other direction.) -/
theorem C85_client_reorder (t : Ty) (ht : t.isCsState = true) (ρ : Bytes → Str) (m : Mode) (μ μ' : Nat → Mem) (p : List U32)
    (ns : List (List U32)) (s : Ty) (es es' : List Entry) (hes : ∀ e ∈ es, Within p e ∨ Aside p e ∧ NoVariant ns e)
    (hes' : ∀ e ∈ es', Within p e ∨ Aside p e ∧ NoVariant ns e)
    (hin : es'.filter (fun e => decide (Within p e)) = es.filter (fun e => decide (Within p e))) (hout : without p es' = without p es)
    (hfit : ∀ x ∈ es, CsFits x) (hfit' : ∀ x ∈ es', CsFits x) (log log' : Bytes) (hlog : (BufferLogger.mk es).bytes m μ = .ok log)
    (hlog' : (BufferLogger.mk es').bytes m μ' = .ok log') (x : s.Cs) (put : s.Cs → t.Cs) (hp : Place t p ns s put) (c' : t.Cs)
    (h : t.csReplay ρ (put x) log = .ok c') : ∃ c'', t.csReplay ρ (put x) log' = .ok c'' ∧ Alike t c'' c' := by
  rw [bytes_eq m μ ⟨_⟩ fun x hx => fits_of (hfit x hx)] at hlog
  rw [bytes_eq m μ' ⟨_⟩ fun x hx => fits_of (hfit' x hx)] at hlog'
  cases hlog
  cases hlog'
  change t.csReplay ρ (put x) (es.flatMap entryBytes) = _ at h
  show ∃ c'', t.csReplay ρ (put x) (es'.flatMap entryBytes) = _ ∧ _
  rw [csReplay_eq ρ t _ _ hfit] at h
  rw [csReplay_eq ρ t _ _ hfit']
  obtain ⟨x', put', ⟨A, h1, h2⟩, h3, -, h5⟩ := csApplyAll_split ht hes hp h
  obtain ⟨c'', h6, h7⟩ := csApplyAll_join ht hes' hp (hin.trans h1) h2 (fun y => by rw [hout]; exact h3 y)
  exact ⟨c'', h6, alike_trans t _ _ _ h7 (alike_symm t _ _ h5)⟩

/-- C85, C#: a client that is sent, in place of the log of a history of calls, the log without overwritten entries, shows the data of the
source. (The entries a source logs are never addressed to a variant.) -/
theorem C85_client_follows (t : Ty) (ht : t.WF) (hst : t.isCsState = true) (hm : Mirrored t) (ρ : Bytes → Str) (m : Mode) (μ : Nat → Mem)
    (id : Nat) (ops : List t.Op) (v : t.El) (w : World) (hv : At t ⟨id, []⟩ v) (hc : Carried t v) (hw : w.loggers id = ⟨0, []⟩)
    (hops : CallsSync t m ops v w) (p : List U32) (ns : List (List U32)) (s : Ty) (x : s.Cs) (put : s.Cs → t.Cs)
    (hp : Place t p ns s put) (hs : Shows t v (put x)) :
    ∃ v' w', calls t m ops v w = (.ok v', w') ∧ ∀ (es later : List Entry) (e : Entry), (w'.loggers id).entries = es ++ e :: later →
      (∀ e ∈ es, Within p e ∨ Aside p e) → Erases p e → (∀ e ∈ (w'.loggers id).entries, CsFits e) →
      ∃ short c', (BufferLogger.mk (without p es ++ e :: later)).bytes m μ = .ok short ∧ t.csReplay ρ (put x) short = .ok c' ∧
        Shows t v' c' := by
  obtain ⟨v', w', es0, h1, hv', hc', hl, hsteps⟩ := calls_tell t ht m ops v ⟨id, []⟩ w hv hc hops
  have hlog : w'.loggers id = ⟨0, es0⟩ := by
    have := hl
    unfold Logged at this
    rw [map_under_nil, hw] at this
    simpa [appended] using this
  refine ⟨v', w', h1, fun es later e hsplit hes he hfit => ?_⟩
  rw [hlog] at hsplit hfit
  simp only at hsplit hfit
  have hnv := steps_noVariant hp ht hsteps
  subst hsplit
  obtain ⟨c1, h2, h3⟩ := csReplay_steps ρ t ht hm hsteps hs hfit
  have hfit' : ∀ x ∈ without p es ++ e :: later, Fits x := by
    intro x hx
    rcases List.mem_append.1 hx with hx | hx
    · exact fits_of (hfit x (List.mem_append_left _ (mem_without hx)))
    · exact fits_of (hfit x (List.mem_append_right _ hx))
  have hshort := bytes_eq m μ ⟨without p es ++ e :: later⟩ hfit'
  obtain ⟨c2, h4, h5⟩ := C85_client_overwritten t hst ρ m μ μ p ns s es
    (fun e he => (hes e he).imp_right fun h => ⟨h, hnv e (List.mem_append_left _ he)⟩) e he (hnv e (by simp)) later hfit _ _
    (bytes_eq m μ ⟨es ++ e :: later⟩ fun x hx => fits_of (hfit x hx)) hshort x put hp c1 h2.done
  exact ⟨_, c2, hshort, h4, shows_alike t v' c1 c2 h3 h5⟩

/-! ## Where it ends -/

/-- An enum with a list in its default variant. -/
abbrev compactEnum : Ty := .enum true false (.cons 0#32 {} (.list (.uint .w8)) .nil) (.cons 1#32 false .nil .nil)

/-- C85 is false on clients of updates addressed to a variant: the update makes the client change the variant, and what is said about the
object in the old variant is not carried out any more. Here that would have failed. (A Rust replica refuses the update.) -/
theorem C85_client_variant_false (ρ : Bytes → Str) (m m' : Mode) (μ μ' : Nat → Mem) :
    Within [0#32, 0#32] (.listPop [0#32, 0#32]) ∧ Aside [0#32, 0#32] (.update [1#32] []) ∧
    Place compactEnum [0#32, 0#32] [[]] (.list (.uint .w8)) (fun l => .inl (l, ())) ∧
    ∃ log log', (BufferLogger.mk [.update [1#32] [], .listPop [0#32, 0#32]]).bytes m μ = .ok log ∧
      (BufferLogger.mk [.listPop [0#32, 0#32], .update [1#32] []]).bytes m μ' = .ok log' ∧
      compactEnum.csReplay ρ (.inl ([], ())) log = .ok (.inr (.inl ())) ∧
      compactEnum.csReplay ρ (.inl ([], ())) log' = .error .invalidOperation ∧
      replay compactEnum.dict m' (compactEnum.dict.withRuntime ⟨9, []⟩) log = .err (compactEnum.dict.withRuntime ⟨9, []⟩) .invalidData := by
  have hfit : ∀ e ∈ [Entry.update [1#32] [], .listPop [0#32, 0#32]], CsFits e := by unfold CsFits; decide +kernel
  have hfit' : ∀ e ∈ [Entry.listPop [0#32, 0#32], .update [1#32] []], CsFits e := by unfold CsFits; decide +kernel
  refine ⟨⟨[], rfl⟩, by unfold Aside; decide, .inside (p := [0#32, 0#32]) (q := []) (.variant (.here .head)) .self, _, _,
    bytes_eq m μ ⟨_⟩ fun e he => fits_of (hfit e he), bytes_eq m μ' ⟨_⟩ fun e he => fits_of (hfit' e he), ?_, ?_, ?_⟩
  · show compactEnum.csReplay ρ _ (_ : Bytes) = _
    rw [csReplay_eq ρ _ _ _ hfit]
    rfl
  · show compactEnum.csReplay ρ _ (_ : Bytes) = _
    rw [csReplay_eq ρ _ _ _ hfit']
    rfl
  · exact replayed hfit rfl (by cases m' <;> rfl)

/-! ## Not vacuous -/

theorem compactPlace : Place againTyE [1#32, 5#32] [] againEnum (fun x => (1#8, [(5#32, x)], ())) :=
  .inside (p := [1#32]) (q := [5#32]) (ns := []) (ns' := []) (.field (.tail (by decide) .head))
    (.inside (p := [5#32]) (q := []) (ns := []) (ns' := []) (.value (pre := []) (post := []) (fun _ h => nomatch h)) .self)

/-- The client, too, need not be told what happened to a value before it was removed. -/
example (ρ : Bytes → Str) (μ μ' : Nat → Mem) : ∃ log short c', (BufferLogger.mk (compactLog ++ [.mapRemove [1#32] 5#32])).bytes .debug μ = .ok log ∧
    (BufferLogger.mk [.update [0#32] [9#8], .update [1#32, 6#32] [1#8], .mapRemove [1#32] 5#32]).bytes .debug μ' = .ok short ∧
    againTyE.csReplay ρ (1#8, [(5#32, .inl (2#8, ()))], ()) log = .ok (9#8, [(6#32, .inr (.inl ()))], ()) ∧
    againTyE.csReplay ρ (1#8, [(5#32, .inl (2#8, ()))], ()) short = .ok c' ∧ Alike againTyE c' (9#8, [(6#32, .inr (.inl ()))], ()) := by
  have hfit : ∀ e ∈ compactLog ++ [Entry.mapRemove [1#32] 5#32], CsFits e := by unfold CsFits; decide +kernel
  have hfit' : ∀ e ∈ [Entry.update [0#32] [9#8], .update [1#32, 6#32] [1#8], .mapRemove [1#32] 5#32], CsFits e := by
    unfold CsFits; decide +kernel
  have hlog := bytes_eq .debug μ ⟨compactLog ++ [.mapRemove [1#32] 5#32]⟩ fun e he => fits_of (hfit e he)
  have hshort := bytes_eq .debug μ' ⟨without [1#32, 5#32] compactLog ++ [.mapRemove [1#32] 5#32]⟩ fun e he => fits_of (hfit' e he)
  have h : againTyE.csReplay ρ (1#8, [(5#32, .inl (2#8, ()))], ()) ((compactLog ++ [Entry.mapRemove [1#32] 5#32]).flatMap entryBytes) =
      .ok (9#8, [(6#32, .inr (.inl ()))], ()) := by
    rw [csReplay_eq ρ _ _ _ hfit]
    rfl
  obtain ⟨c', h1, h2⟩ := C85_client_overwritten againTyE rfl ρ .debug μ μ' [1#32, 5#32] [] againEnum compactLog
    (fun e he => (compactLog_sorted e he).imp_right fun h => ⟨h, by cases e <;> first | exact trivial | exact fun _ h => nomatch h⟩)
    (.mapRemove [1#32] 5#32) ⟨[], rfl⟩ trivial [] hfit _ _ hlog hshort (.inl (2#8, ())) _ compactPlace _ h
  exact ⟨_, _, c', hlog, hshort, h, h1, h2⟩

/-- The entries for the value after all the others. -/
example (ρ : Bytes → Str) (μ μ' : Nat → Mem) : ∃ log log' c1 c2, (BufferLogger.mk compactLog).bytes .debug μ = .ok log ∧
    (BufferLogger.mk [.update [0#32] [9#8], .update [1#32, 6#32] [1#8], .update [1#32, 5#32, 0#32, 0#32] [6#8],
      .update [1#32, 5#32] [0#8, 0#8, 4#8]]).bytes .debug μ' = .ok log' ∧
    againTyE.csReplay ρ (1#8, [(5#32, .inl (2#8, ()))], ()) log = .ok c1 ∧
    againTyE.csReplay ρ (1#8, [(5#32, .inl (2#8, ()))], ()) log' = .ok c2 ∧ Alike againTyE c2 c1 := by
  have hfit : ∀ e ∈ compactLog, CsFits e := by unfold CsFits; decide +kernel
  have hfit' : ∀ e ∈ [Entry.update [0#32] [9#8], .update [1#32, 6#32] [1#8], .update [1#32, 5#32, 0#32, 0#32] [6#8],
      .update [1#32, 5#32] [0#8, 0#8, 4#8]], CsFits e := by unfold CsFits; decide +kernel
  have hlog := bytes_eq .debug μ ⟨compactLog⟩ fun e he => fits_of (hfit e he)
  have hlog' := bytes_eq .debug μ' ⟨[.update [0#32] [9#8], .update [1#32, 6#32] [1#8], .update [1#32, 5#32, 0#32, 0#32] [6#8],
      .update [1#32, 5#32] [0#8, 0#8, 4#8]]⟩ fun e he => fits_of (hfit' e he)
  have h : againTyE.csReplay ρ (1#8, [(5#32, .inl (2#8, ()))], ()) (compactLog.flatMap entryBytes) =
      .ok (9#8, [(6#32, .inr (.inl ())), (5#32, .inl (4#8, ()))], ()) := by
    rw [csReplay_eq ρ _ _ _ hfit]
    rfl
  obtain ⟨c', h1, h2⟩ := C85_client_reorder againTyE rfl ρ .debug μ μ' [1#32, 5#32] [] againEnum compactLog _
    (fun e he => (compactLog_sorted e he).imp_right fun h => ⟨h, by cases e <;> first | exact trivial | exact fun _ h => nomatch h⟩)
    (by
      intro e he
      simp only [List.mem_cons, List.not_mem_nil, or_false] at he
      rcases he with rfl | rfl | rfl | rfl
      · exact .inr ⟨by unfold Aside; decide, fun _ h => nomatch h⟩
      · exact .inr ⟨by unfold Aside; decide, fun _ h => nomatch h⟩
      · exact .inl ⟨[0#32, 0#32], rfl⟩
      · exact .inl ⟨[], rfl⟩)
    (by decide) (by decide) hfit hfit' _ _ hlog hlog' (.inl (2#8, ())) _ compactPlace _ h
  exact ⟨_, _, _, c', hlog, hlog', h, h1, h2⟩

/-- The client is not told of the push, and shows the data of the source. -/
example (ρ : Bytes → Str) (μ : Nat → Mem) :
    ∃ v' w' i, calls hTy .debug compactOps (hVal [] [] (hA 0)) hWorld = (.ok v', w') ∧
      (w'.loggers 4).entries = [.listPush [0#32] [7#8], .update [1#32, 3#32] i, .update [0#32] [1#8]] ∧
      ∃ short c', (BufferLogger.mk [.update [1#32, 3#32] i, .update [0#32] [1#8]]).bytes .debug μ = .ok short ∧
        hTy.csReplay ρ hTy.csNew short = .ok c' ∧ Shows hTy v' c' := by
  obtain ⟨v', w', h1, h2⟩ := C85_client_follows hTy hTy_wf rfl hTy_mirrored ρ .debug μ 4 compactOps (hVal [] [] (hA 0)) hWorld
    (hVal_at 4) ((carried_init hTy).1 ⟨4, []⟩) rfl (compactOps_ok hWorld) [0#32] [] (.list (.uint .w8)) [] (fun l => (l, hTy.csNew.2))
    (.inside (p := [0#32]) (q := []) (ns := []) (ns' := []) (.field .head) .self) ⟨.nil, fun _ => .none, ⟨rfl, trivial⟩, trivial⟩
  have he : (w'.loggers 4).entries = [.listPush [0#32] [7#8], .update [1#32, 3#32] [5#8], .update [0#32] [1#8]] := by
    have : (w'.loggers 4).entries = ((calls hTy .debug compactOps (hVal [] [] (hA 0)) hWorld).2.loggers 4).entries := by rw [h1]
    rw [this]
    decide +kernel
  obtain ⟨short, c', h3, h4, h5⟩ := h2 [.listPush [0#32] [7#8], .update [1#32, 3#32] [5#8]] [] (.update [0#32] [1#8]) he
    (by
      intro e he
      simp only [List.mem_cons, List.not_mem_nil, or_false] at he
      rcases he with rfl | rfl
      · exact .inl ⟨[], rfl⟩
      · exact .inr (by unfold Aside; decide))
    ⟨[], rfl⟩ (by rw [he]; unfold CsFits; decide +kernel)
  exact ⟨v', w', [5#8], h1, he, short, c', h3, h4, h5⟩

end Steit
