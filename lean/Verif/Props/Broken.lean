import Verif.Props.Attempt
import Verif.Props.CutLog

/-!
# Loggers that fail in the middle of an entry: property C60

A logger that sends entries over a connection may have sent the first bytes of an entry when the connection breaks. To the program this
is a logger that refuses the entry (`Verif/Model/Attempt.lean`), but there are a few more bytes on the other side.
-/

namespace Steit
open Spec Prog

/-- C60, C# clients, when the connection breaks for good: a program makes any number of calls, the entries recorded have been sent, and
then the first bytes of one more that was refused. The client shows exactly what the program is left with, and throws if there were
such bytes. Missing: as in `C60_client_follows_survivor_partial`. -/
theorem C60_client_after_break_partial (t : Ty) (ht : t.WF) (hm : Mirrored t) (ρ : Bytes → Str) (m : Mode) (μ : Nat → Mem) (μ' : Mem)
    (id : Nat) (ops : List t.Op) (v : t.El) (c : t.Cs) (w : Fallible) (hv : At t ⟨id, []⟩ v) (hc : Carried t v) (hs : Shows t v c)
    (hw : w.world.loggers id = ⟨0, []⟩) (hops : TriesSync t m ops v w) (e : Entry) (he : CsFits e) :
    let (v', w') := tries t m ops v w
    (∀ e ∈ (w'.world.loggers id).entries, CsFits e) →
      ∃ bytes torn c', (BufferLogger.mk (w'.world.loggers id).entries).bytes m μ = .ok bytes ∧ e.bytes m μ' = .ok torn ∧ Shows t v' c' ∧
        ∀ n < torn.length, t.csReplayLeft ρ (bytes ++ torn.take n).length c (bytes ++ torn.take n) =
          (c', if n = 0 then none else some .endOfStream) := by
  obtain ⟨es, h1, h2, hl, hsteps⟩ := tries_told t ht m ⟨id, []⟩ ops v w hv hc hops
  have hlog : (tries t m ops v w).2.world.loggers id = ⟨0, es⟩ := by
    have := hl
    unfold Logged at this
    rw [map_under_nil, hw] at this
    simpa [appended] using this
  intro hfit
  rw [hlog] at hfit ⊢
  have hfe : Fits e := by unfold CsFits at he; unfold Fits; omega
  obtain ⟨c', h3, h4⟩ := csReplay_steps ρ t ht hm hsteps hs hfit
  refine ⟨_, _, c', bytes_eq m μ ⟨es⟩ (fun e he => by have := hfit e he; unfold CsFits at this; unfold Fits; omega),
    entry_bytes_eq m μ' e (entry_small hfe), h4, fun n hn => ?_⟩
  obtain ⟨c2, _, h5, h6⟩ := csLeft_steps ρ t ht hm ((entryBytes e).take n) hsteps hs hfit
  have hcc : c2 = c' := by
    have := h5.done
    rw [h3.done] at this
    injection this with this
    exact this.symm
  obtain ⟨n', hn', h7⟩ := h6 _ (Nat.le_refl _)
  have hn : n < (entryBytes e).length := hn
  show t.csReplayLeft ρ (es.flatMap entryBytes ++ (entryBytes e).take n).length c (es.flatMap entryBytes ++ (entryBytes e).take n) = _
  rw [h7, hcc]
  cases n with
  | zero => cases n' <;> rfl
  | succ n =>
    have hne : (entryBytes e).take (n + 1) ≠ [] := by
      intro h0
      have := congrArg List.length h0
      rw [List.length_take, List.length_nil] at this
      omega
    have hshort : (entryBytes e).take (n + 1) ≠ entryBytes e := by
      intro h0
      have := congrArg List.length h0
      rw [List.length_take] at this
      omega
    have hl : (encode logEntryTy e.toEl).length < 2 ^ 31 := by
      have := encode_entry_le e hfe
      unfold CsFits at he
      omega
    have hex : csGetNested ((entryBytes e).take (n + 1)) = .error .endOfStream := by
      rcases cut_frame (short := (entryBytes e).take (n + 1)) (p := encode logEntryTy e.toEl) (List.take_prefix _ _) hshort with ⟨h8, h9⟩ | ⟨q, h8, h9, h10⟩
      · exact csGetNested_short h8 h9
      · rw [h10]
        refine csGetNested_cut ?_ hl
        rcases Nat.lt_or_ge q.length (encode logEntryTy e.toEl).length with h | h
        · exact h
        · exact absurd (h8.eq_of_length (by have := h8.length_le; omega)) h9
    cases n' with
    | zero => exact absurd (List.length_eq_zero_iff.1 (by omega)) hne
    | succ n' => rw [csReplayLeft_throws hex hne n', if_neg (by omega)]

/-- C60 is false when entries are recorded after one that was cut (the logger tried again over the same connection): replicas read what
follows as the missing bytes. The program has a list `[3]`; `push(7)` fails after three bytes, `pop` is sent. The program is left with
an empty list, the replica with `[3, 9]`, and nothing is reported. -/
theorem C60_after_torn_entry_false (m' : Mode) (μ : Nat → Mem) (μ' : Mem) :
    ∃ (w : Fallible) (bytes torn : Bytes), w.world.loggers 4 = ⟨0, []⟩ ∧
      (let (v', w') := tries (.list (.uint .w8)) .debug [.push (7#8 : BitVec 8), .pop] ⟨⟨4, []⟩, ([3#8] : List (BitVec 8))⟩ w
       v'.items = [] ∧ (BufferLogger.mk (w'.world.loggers 4).entries).bytes .debug μ = .ok bytes) ∧
      (Entry.listPush [] [7#8]).bytes .debug μ' = .ok torn ∧ 3 < torn.length ∧
      replay (Ty.list (.uint .w8)).dict m' ⟨⟨9, []⟩, [3#8]⟩ (torn.take 3 ++ bytes) = .ok ⟨⟨9, []⟩, [3#8, 9#8]⟩ [] := by
  have h1 : ∀ e ∈ [Entry.listPop []], Fits e := by unfold Fits; decide +kernel
  refine ⟨⟨hWorld, fun n => if n = 0 then .error else .stored, fun _ => false⟩, [1#8, 9#8], [4#8, 8#8, 10#8, 1#8, 7#8], rfl,
    ⟨rfl, ?_⟩, ?_, by decide, by cases m' <;> rfl⟩
  · refine (bytes_eq .debug μ ⟨[Entry.listPop []]⟩ h1).trans (congrArg Except.ok ?_)
    show entryBytes (.listPop []) ++ [] = _
    decide +kernel
  · exact (entry_bytes_eq .debug μ' (.listPush [] [7#8]) (entry_small (by unfold Fits; decide +kernel))).trans (by decide +kernel)

/-- Not vacuous: the calls of `Verif/Props/Attempt.lean`, the last of which fails after any number of bytes of its entry. -/
example (ρ : Bytes → Str) (μ : Nat → Mem) (μ' : Mem) (n : Nat) (hn : n < 2) :
    ∃ bytes torn c', (BufferLogger.mk [.listPush [] [1#8], .listPush [] [2#8]]).bytes .debug μ = .ok bytes ∧
      (Entry.listPop []).bytes .debug μ' = .ok torn ∧ Shows (.list (.uint .w8)) ⟨⟨4, []⟩, ([1#8, 2#8] : List (BitVec 8))⟩ c' ∧
      (Ty.list (.uint .w8)).csReplayLeft ρ (bytes ++ torn.take n).length (Ty.list (.uint .w8)).csNew (bytes ++ torn.take n) =
        (c', if n = 0 then none else some .endOfStream) := by
  have s8 := sendable_w8
  have hops : TriesSync (.list (.uint .w8)) .debug [.push (1#8 : BitVec 8), .push (2#8 : BitVec 8), .pop] ⟨⟨4, []⟩, []⟩
      ⟨hWorld, fun n => if n < 2 then .stored else .error, fun _ => false⟩ :=
    ⟨⟨Rt.dflt, trivial⟩, s8 _, fun h => h.1, ⟨Rt.dflt, trivial⟩, s8 _, fun h => h.1, trivial, trivial, fun h => h.1, trivial⟩
  have h := C60_client_after_break_partial (.list (.uint .w8)) ⟨rfl, trivial⟩ trivial ρ .debug μ μ' 4
    [.push (1#8 : BitVec 8), .push (2#8 : BitVec 8), .pop] ⟨⟨4, []⟩, []⟩ (Ty.list (.uint .w8)).csNew
    ⟨hWorld, fun n => if n < 2 then .stored else .error, fun _ => false⟩ ⟨rfl, fun _ _ _ => trivial⟩ (fun x hx => nomatch hx) .nil rfl hops
    (.listPop []) (by unfold CsFits; decide +kernel)
  obtain ⟨bytes, torn, c', h1, h2, h3, h4⟩ := h (by unfold CsFits; decide +kernel)
  refine ⟨bytes, torn, c', h1, h2, h3, h4 n ?_⟩
  rw [entry_bytes_eq .debug μ' (.listPop []) (entry_small (by unfold Fits; decide +kernel))] at h2
  injection h2 with h2
  rw [← h2]
  exact Nat.lt_of_lt_of_le hn (by decide +kernel)

end Steit
