import Verif.Model.GenFiles

/-!
# Generated files, as they should be
-/

namespace Steit.Gen.Spec

variable {ω : Type}

/-- A message that is not skipped. -/
def Wanted (skipBuiltins : Bool) (skipNames : List String) (name : String) (m : MessageMeta) : Prop :=
  name ∉ skipNames ∧ (skipBuiltins = true → m.isBuiltin = false)

/-- A disk on which every file can be created, and where every write takes at least a byte. -/
structure Working (D : Disk ω) : Prop where
  create : ∀ path fs w, (D.create path fs w).1 = true
  write : ∀ path bs fs w, bs ≠ [] → ∃ n, 0 < n ∧ (D.write path bs fs w).1 = some n

/-- The file at `path` is the beginning of `text`, and what is missing was small enough for the buffer. -/
def HoldsMost (setting : GenSetting) (files : Files) (path : String) (text : Text) : Prop :=
  ∃ kept lost, utf8 text = kept ++ lost ∧ files path = some kept ∧ (lost = [] ∨ lost.length < setting.capacity) ∧
    (setting.whole = true → lost = [] ∨ (utf8 text).length < setting.capacity)

/-- The file at `path` is the beginning of `text`. -/
def HoldsSome (files : Files) (path : String) (text : Text) : Prop :=
  ∃ kept lost, utf8 text = kept ++ lost ∧ files path = some kept

end Steit.Gen.Spec
