import Verif.Model.Log

/-! # Replaying a log (`steit/src/state.rs:37-73`) -/

namespace Steit

/-- `self.handle(path, kind, key, reader)` for an unpacked entry, `steit/src/state.rs:48-53`; what `handle` leaves unread of
the entry's payload is dropped. -/
def applyEntry {α : Type} (d : Dict α) (m : Mode) (v : α) (e : Entry) : Res α :=
  match e.unpack with
  | (kind, path, key, bytes) => d.handle m v path kind key (bytes.getD [])

/-- One round of the loop of `State::replay`, `steit/src/state.rs:46-53`. -/
def replayStep {α : Type} (d : Dict α) (m : Mode) (v : α) (bs : Bytes) : Res α :=
  match logEntryTy.dict.deserializeNested m logEntryTy.dict.wire bs with
  | .error e => .err v e
  | .ok (entry, rest) =>
    match applyEntry d m v (Entry.ofEl entry) with
    | .ok v' _ => .ok v' rest
    | .err v' e => .err v' e

/-- `State::replay`, `steit/src/state.rs:37-57`. -/
def replay {α : Type} (d : Dict α) (m : Mode) (v : α) (bs : Bytes) : Res α :=
  match d.isRoot v with
  | .error e => .err v e
  | .ok false => .err v .invalidInput
  | .ok true => untilEof (replayStep d m) bs.length v bs

end Steit
