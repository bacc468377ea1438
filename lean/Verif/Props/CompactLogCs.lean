import Verif.Props.CompactLog
import Verif.Props.CompactCs
import Verif.Lemmas.CompactSays

/-!
# Clients and logs made shorter without knowledge of the state: property C85
-/

namespace Steit
open Spec Prog

/-- C85, C#: as `C85_compacted_replica`, for clients: a client that is sent a shorter log (`Compacted`, made without looking at any state)
in place of the log of a history of calls throws no exception and shows the data of the source. -/
theorem C85_client_compacted (t : Ty) (ht : t.WF) (hst : t.isState = true) (hm : Mirrored t) (ρ : Bytes → Str) (m : Mode) (μ : Nat → Mem)
    (id : Nat) (ops : List t.Op) (v : t.El) (c : t.Cs) (w : World) (hv : At t ⟨id, []⟩ v) (hc : Carried t v) (hs : Shows t v c)
    (hw : w.loggers id = ⟨0, []⟩) (hops : CallsSync t m ops v w) :
    ∃ v' w', calls t m ops v w = (.ok v', w') ∧ ∀ es', Compacted (w'.loggers id).entries es' →
      (∀ e ∈ (w'.loggers id).entries, CsFits e) →
      ∃ short c', (BufferLogger.mk es').bytes m μ = .ok short ∧ t.csReplay ρ c short = .ok c' ∧ Shows t v' c' := by
  obtain ⟨v', w', es, h1, -, -, hl, hsteps⟩ := calls_tell t ht m ops v ⟨id, []⟩ w hv hc hops
  have hlog : w'.loggers id = ⟨0, es⟩ := by
    have := hl
    unfold Logged at this
    rw [map_under_nil, hw] at this
    simpa [appended] using this
  refine ⟨v', w', h1, fun es' ho hfit => ?_⟩
  rw [hlog] at ho hfit
  have hsub := compacted_sub ho
  obtain ⟨r', h2, h3⟩ := follows_steps ht hst m hsteps hv rfl
  have h4 := applies_compacted ht hst m ho hv h2
  have h5 := steps_of_applies ht hst (fun e he => steps_said hc hsteps e (hsub e he)) hv h4
  obtain ⟨c', h6, h7⟩ := csReplay_steps ρ t ht hm h5 hs fun e he => hfit e (hsub e he)
  exact ⟨_, c', bytes_eq m μ ⟨es'⟩ fun e he => fits_of (hfit e (hsub e he)), h6.done, (shows_same h3 c').1 h7⟩

/-! ## Not vacuous -/

/-- The client is not told of the push, which is seen from the log alone to make no difference. -/
example (ρ : Bytes → Str) (μ : Nat → Mem) :
    ∃ v' w' i, calls hTy .debug compactOps (hVal [] [] (hA 0)) hWorld = (.ok v', w') ∧
      (w'.loggers 4).entries = [.listPush [0#32] [7#8], .update [1#32, 3#32] i, .update [0#32] [1#8]] ∧
      ∃ short c', (BufferLogger.mk [.update [1#32, 3#32] i, .update [0#32] [1#8]]).bytes .debug μ = .ok short ∧
        hTy.csReplay ρ hTy.csNew short = .ok c' ∧ Shows hTy v' c' := by
  obtain ⟨v', w', h1, h2⟩ := C85_client_compacted hTy hTy_wf rfl hTy_mirrored ρ .debug μ 4 compactOps (hVal [] [] (hA 0)) hTy.csNew hWorld
    (hVal_at 4) ((carried_init hTy).1 ⟨4, []⟩) ⟨.nil, fun _ => .none, ⟨rfl, trivial⟩, trivial⟩ rfl (compactOps_ok hWorld)
  have he : (w'.loggers 4).entries = [.listPush [0#32] [7#8], .update [1#32, 3#32] [5#8], .update [0#32] [1#8]] := by
    have : (w'.loggers 4).entries = ((calls hTy .debug compactOps (hVal [] [] (hA 0)) hWorld).2.loggers 4).entries := by rw [h1]
    rw [this]
    decide +kernel
  obtain ⟨short, c', h3, h4, h5⟩ := h2 [.update [1#32, 3#32] [5#8], .update [0#32] [1#8]]
    (by
      rw [he]
      refine .step .refl (.existed (before := []) (p := [0#32]) (x := .listPush [0#32] [7#8]) (es := [.update [1#32, 3#32] [5#8]])
        (e := .update [0#32] [1#8]) (later := []) ⟨[], rfl⟩ (fun _ h => nomatch h) ?_ ⟨[], rfl⟩)
      intro e he
      simp only [List.mem_cons, List.not_mem_nil, or_false] at he
      subst he
      exact .inr (by unfold Aside; decide))
    (by rw [he]; unfold CsFits; decide +kernel)
  exact ⟨v', w', [5#8], h1, he, short, c', h3, h4, h5⟩

end Steit
