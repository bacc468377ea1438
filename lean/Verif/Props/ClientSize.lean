import Verif.Lemmas.CsGrowReplay
import Verif.Props.CutLog

/-!
# How big a C# client can get: property C78

The counterpart of C74. The bytes are arbitrary throughout: a client does not trust its server more than a server its clients.
-/

namespace Steit
open Spec

/-- C78. What a client deserializes from `n` bytes has at most `csGrowth t * (n + 1)` objects and string bytes in it; `csGrowth t`
is the size of the declaration, strings counted three times. -/
theorem C78_decoded (ρ : Bytes → Str) (hρ : Replaces ρ) (t : Ty) (bs rest : Bytes) (c : t.Cs)
    (h : t.csDeserialize ρ bs = .ok (c, rest)) : csWeight t c ≤ csGrowth t * (bs.length + 1) :=
  feeds_value hρ t h

/-- C78. So also when it is called without a path. -/
theorem C78_decoded_root (ρ : Bytes → Str) (hρ : Replaces ρ) (t : Ty) (bs rest : Bytes) (c : t.Cs)
    (h : t.csDeserializeRoot ρ bs = .ok (c, rest)) : csWeight t c ≤ csGrowth t * (bs.length + 1) := by
  unfold Ty.csDeserializeRoot at h
  split at h
  · split at h
    · split at h <;> cases h
    · exact feeds_value hρ _ h
  · exact feeds_value hρ _ h

/-- C78. A newly constructed object is no bigger than the declaration. -/
theorem C78_new (t : Ty) : csWeight t t.csNew ≤ csGrowth t := csWeight_new t

/-- C78. Replaying `n` bytes of log on a client's object adds at most `12 * csGrowth t * n`, whether it goes through or an
exception ends it: then this holds of what the client is left with. -/
theorem C78_replayed (ρ : Bytes → Str) (hρ : Replaces ρ) (t : Ty) (c : t.Cs) (bs : Bytes) :
    csWeight t (t.csReplayLeft ρ bs.length c bs).1 ≤ csWeight t c + 12 * csGrowth t * bs.length := by
  have hg : csGrowth logEntryTy = 12 := rfl
  rcases C61_client_stops_at_first_bad_entry ρ t c bs with ⟨c1, h1, h2⟩ | ⟨c1, e, done, rest, h1, _, h3, _, h4, _⟩
  · have := grown_csReplay hρ t h2
    rw [h1]
    rw [hg, Nat.mul_comm (csGrowth t)] at this
    exact this
  · have := grown_csReplay hρ t h4
    rw [h1]
    rw [hg, Nat.mul_comm (csGrowth t)] at this
    have hl : 12 * csGrowth t * done.length ≤ 12 * csGrowth t * bs.length :=
      Nat.mul_le_mul_left _ (by rw [h3, List.length_append]; omega)
    show csWeight t c1 ≤ _
    omega

/-- C78. And when it goes through, of the result. -/
theorem C78_replay_ok (ρ : Bytes → Str) (hρ : Replaces ρ) (t : Ty) (c c' : t.Cs) (bs : Bytes) (h : t.csReplay ρ c bs = .ok c') :
    csWeight t c' ≤ csWeight t c + 12 * csGrowth t * bs.length := by
  have := C78_replayed ρ hρ t c bs
  rcases C61_client_stops_at_first_bad_entry ρ t c bs with ⟨c1, h1, h2⟩ | ⟨c1, e, done, rest, _, h2, _⟩
  · rw [h1] at this
    cases h.symm.trans h2
    exact this
  · cases h.symm.trans h2

/-! ## Cases -/

/-- U+FFFD for all of the bytes. -/
def fffd (bs : Bytes) : Str := if bs = [] then ⟨[], rfl⟩ else ⟨[0xef#8, 0xbf#8, 0xbd#8], by decide⟩

theorem fffd_replaces : Replaces fffd := by
  intro bs
  unfold fffd
  split
  · exact Nat.zero_le _
  · rename_i h
    have := List.length_pos_iff.2 h
    show 3 ≤ _
    omega

/-- Not vacuous, and no factor can be spared for strings: a byte that is no UTF-8 becomes three, an object around them. -/
example : (Ty.string).csDeserialize fffd [0xff#8] = .ok (some ⟨[0xef#8, 0xbf#8, 0xbd#8], by decide⟩, []) ∧
    csWeight .string (some ⟨[0xef#8, 0xbf#8, 0xbd#8], by decide⟩) = 4 ∧ csGrowth .string * 2 = 6 := by
  refine ⟨by decide, by decide, by decide⟩

/-- Eight strings of one byte each: nine objects and eight bytes, from sixteen bytes. -/
example : ∃ c, (Ty.list .string).csDeserialize fffd ((List.replicate 8 [1#8, 65#8]).flatten) = .ok (c, []) ∧
    csWeight (.list .string) c = 17 ∧ csGrowth (.list .string) * 17 = 68 := ⟨_, rfl, by decide, by decide⟩

/-- A log of one push, and bytes that are no log: an exception, and one object more. -/
example : ((Ty.list (.uint .w8)).csReplayLeft fffd 7 [] [4#8, 8#8, 10#8, 1#8, 7#8, 5#8, 8#8]) = ([7#8], some .endOfStream) ∧
    csWeight (.list (.uint .w8)) [7#8] = 2 ∧ csWeight (.list (.uint .w8)) [] = 1 := ⟨rfl, by decide, by decide⟩

end Steit
