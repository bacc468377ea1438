import Verif.Conformance.GeneratedFiles
import Verif.Props.Classes

/-!
# Declarations of the repository, compared with the metadata its generated files come from

`C69_log_entries` is about the file generated for `logDecls`. That is the metadata the generator is tested with in `Conformance/GeneratedFiles.lean`.
-/

namespace Steit.Conformance

open Gen

example : logDecls.message () = metaLogEntry := rfl

/-- `C69_false_generic_enum` is about the `Maybe` of `steit-derive/test-crate/src/lib.rs:50-56`. -/
example : MessageMeta.enum exMaybe = metaMaybe := rfl

end Steit.Conformance
