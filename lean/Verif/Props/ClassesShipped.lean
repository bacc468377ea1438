import Verif.Lemmas.LinesGen
import Verif.Model.MaybeFile
import Verif.Props.Classes

/-!
# C69: the class by which the client reads log entries

`C69_log_entries` is about what the generator writes for `LogEntry`. The client does not generate this class, it has it as a file. The file is
what the generator writes, so that its classes, run, read log entries as the client model does.
-/

namespace Steit.Gen

open Steit.Gen.Spec Steit.Spec Steit.Conformance

/-- The declaration. -/
def logEnum : EnumMeta :=
  match logDecls.message () with
  | .enum e => e
  | .struct _ => ⟨⟨"", none⟩, [], [], false⟩

/-- C69. `steit-csharp/src/State/LogEntry.cs` is, character by character, what the generator writes for the declaration of `LogEntry`
(`steit/src/log/entry.rs:19-48`). -/
theorem C69_log_entry_file : source ascii ⟨lit! "Steit.State", []⟩ (logDecls.message ()) = some logEntryFile :=
  source_enum (e := logEnum) (by decide +kernel)

/-- C69. The class in `steit-csharp/src/State/LogEntry.cs`, run, reads any bytes as the client model does (`replayStepAt`). -/
theorem C69_log_entries_as_shipped (ρ : Bytes → Str) (bs : Bytes) :
    deserialize (projectOf [logEntryFile]) ρ (depth logEntryTy) (.message (lit! "LogEntry") []) bs =
      (logEntryTy.csDeserialize ρ bs).map fun (e, rest) => (valOf logEntryTy e, rest) := by
  obtain ⟨text, ht, h⟩ := C69_log_entries
  cases ht.symm.trans C69_log_entry_file
  exact h ρ bs

/-- C69. Of every entry a Rust program logs, below the limit of 2 GiB of the client, the class in `steit-csharp/src/State/LogEntry.cs` reads
that entry: its kind, its path, its key and its bytes. -/
theorem C69_entry_read_as_shipped (ρ : Bytes → Str) (e : Entry) (h : CsFits e) :
    ∃ c : logEntryTy.Cs, Entry.ofCs c = e ∧
      deserialize (projectOf [logEntryFile]) ρ (depth logEntryTy) (.message (lit! "LogEntry") []) (encode logEntryTy e.toEl) =
        .ok (valOf logEntryTy c, []) := by
  have hl := encode_entry_le e (by unfold CsFits at h; unfold Steit.Spec.Fits; omega)
  obtain ⟨c, h1, h2⟩ := readable ρ logEntryTy logEntryTy_wf logEntryTy_mirrored e.toEl (carried_legible _ _ (carried_toEl e))
    (by unfold CsFits at h; omega)
  have h2 := h2 [] (fun _ => rfl)
  rw [List.append_nil] at h2
  refine ⟨c, ofCs_shows e c h1, ?_⟩
  rw [C69_log_entries_as_shipped]
  simp only [h2, Except.map]

/-- `MapRemove` of key 7 in the map at path 1, 2, and what the class has of it. -/
example (ρ : Bytes → Str) : CsFits (.mapRemove [1, 2] 7) ∧ encode logEntryTy (Entry.mapRemove [1, 2] 7).toEl = [12, 2, 2, 1, 2, 8, 7] ∧
    deserialize (projectOf [logEntryFile]) ρ (depth logEntryTy) (.message (lit! "LogEntry") []) [12, 2, 2, 1, 2, 8, 7] =
      .ok (valOf logEntryTy (.inr (.inr (.inr (.inl ([1, 2], 7, ()))))), []) := by
  refine ⟨by unfold CsFits; decide, by decide +kernel, ?_⟩
  rw [C69_log_entries_as_shipped]
  rfl

/-! ## `Maybe` -/

/-- C69. `steit-csharp/src/Builtins/Maybe.cs` is, character by character, what the generator writes for `Maybe<T>`. -/
theorem C69_maybe_file : source ascii ⟨lit! "Steit.Builtins", []⟩ (.enum exMaybe) = some maybeFile := source_enum (by decide +kernel)

/-- `C69_false_generic_enum` is about this file: the class in it has two methods that return `Maybe`, and in a project with this file and
without another class `Maybe` there is no such type. -/
theorem C69_false_maybe_as_shipped : ∃ c cs, classesOf maybeFile = c :: cs ∧
    (∀ v ∈ [lit! "None", lit! "Some"], (8, ⟨lit! "public", .method, lit! "static Maybe", lit! "New" ++ v⟩) ∈ outline maybeFile) ∧
    (∀ P : Project, P.find (lit! "Maybe") 0 = none → ∀ args, readType P ⟨c, cs⟩ args (lit! "Maybe") = none) ∧
    (projectOf [maybeFile, logEntryFile]).find (lit! "Maybe") 0 = none := by
  obtain ⟨c, cs, hc, h1, h2⟩ := C69_generic_enum (setting := ⟨lit! "Steit.Builtins", []⟩) ascii_keeps (by decide) (fun u hu => (nomatch hu))
    exMaybe_named exMaybe_ident C69_maybe_file
  refine ⟨c, cs, hc, fun v hv => ?_, h2 (by decide +kernel) (by decide +kernel) (by decide +kernel) (by decide +kernel), by decide +kernel⟩
  simp only [List.mem_cons, List.not_mem_nil, or_false] at hv
  rcases hv with rfl | rfl
  · exact h1 _ (.head _)
  · exact h1 _ (.tail _ (.head _))

end Steit.Gen
