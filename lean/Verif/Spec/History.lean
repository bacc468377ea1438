import Verif.Spec.Ops
import Verif.Model.Replay

/-!
# Specification: clients making any number of API calls, and replicas that receive their logs
-/

namespace Steit.Spec

/-- A client making one API call after the other. -/
def calls (t : Ty) (m : Mode) : List t.Op → t.El → Exec t.El
  | [], v => pure v
  | op :: ops, v => do
    let v ← t.run m op v
    calls t m ops v

/-- Every call is made where it keeps addresses right (`OpAddr`), in the state it meets. -/
def CallsAddr (t : Ty) (m : Mode) : List t.Op → t.El → World → Prop
  | [], _, _ => True
  | op :: ops, v, w => OpAddr t op v ∧ ∀ v' w', t.run m op v w = (.ok v', w') → CallsAddr t m ops v' w'

/-- Every call is moreover one replicas can follow (`OpSync`), in the state it meets. -/
def CallsSync (t : Ty) (m : Mode) : List t.Op → t.El → World → Prop
  | [], _, _ => True
  | op :: ops, v, w => OpAddr t op v ∧ OpSync t op v ∧ ∀ v' w', t.run m op v w = (.ok v', w') → CallsSync t m ops v' w'

/-- The world after one of the loggers was drained (`BufferLogger::pluck_bytes`). -/
def drained (id : Nat) (w : World) : World :=
  { w with loggers := fun i => if i = id then { w.loggers i with entries := [] } else w.loggers i }

/-- A source and a replica in rounds: the source makes some calls, then its log is turned into bytes (`m`, `μ`: the build mode
and the size caches found) and drained, then the replica, in another build mode `m'`, replays the bytes. `none` if a call
panics, the log cannot be written or the replay fails. -/
def rounds (t : Ty) (m m' : Mode) (μ : Nat → Prog.Mem) (id : Nat) :
    List (List t.Op) → t.El → t.El → World → Option (t.El × t.El × World)
  | [], v, r, w => some (v, r, w)
  | ops :: rest, v, r, w =>
    match calls t m ops v w with
    | (.error _, _) => none
    | (.ok v', w') =>
      match (BufferLogger.mk (w'.loggers id).entries).bytes m μ with
      | .error _ => none
      | .ok bytes =>
        match replay t.dict m' r bytes with
        | .err _ _ => none
        | .ok r' _ => rounds t m m' μ id rest v' r' (drained id w')

/-- Admissible rounds: every call is, in the state it meets, and no log entry exceeds the size limit of messages. -/
def RoundsSync (t : Ty) (m : Mode) (id : Nat) : List (List t.Op) → t.El → World → Prop
  | [], _, _ => True
  | ops :: rest, v, w => CallsSync t m ops v w ∧
    ∀ v' w', calls t m ops v w = (.ok v', w') →
      (∀ e ∈ (w'.loggers id).entries, Fits e) ∧ RoundsSync t m id rest v' (drained id w')

/-! ## Closures -/

/-- Code that, while the logger `id` is paused, leaves it as it is: nothing logged, pauses and unpauses balanced. -/
def Quiet {α : Type} (id : Nat) (x : Exec α) : Prop :=
  ∀ w a w', 0 < (w.loggers id).paused → x w = (.ok a, w') → w'.loggers id = w.loggers id

mutual
/-- The closures passed in a call are quiet. -/
def OpQuiet (id : Nat) : (t : Ty) → t.Op → Prop
  | .box t, op => OpQuiet id t op
  | .list t, op =>
    match op with
    | .item _ op => OpQuiet id t op
    | .pushWith f => ∀ rt, Quiet id (f rt)
    | _ => True
  | .map _ t, op =>
    match op with
    | .value _ op => OpQuiet id t op
    | .insertWith _ f => ∀ rt, Quiet id (f rt)
    | _ => True
  | .struct true _ fs, op => OpQuietFields id fs op
  | .enum true _ fs vs, op =>
    match op with
    | .inl op => OpQuietFields id fs op
    | .inr op => OpQuietVariant id vs op
  | _, _ => True

/-- Fields. -/
def OpQuietFields (id : Nat) : (fs : Fields) → fs.Op → Prop
  | .nil, _ => True
  | .cons _ _ t _, .inl op =>
    match op with
    | .inner op => OpQuiet id t op
    | .setWith f => ∀ rt, Quiet id (f rt)
    | .set _ => True
  | .cons _ _ _ fs, .inr op => OpQuietFields id fs op

/-- Variants. -/
def OpQuietVariant (id : Nat) : (vs : Variants) → vs.Op → Prop
  | .nil, _ => True
  | .cons _ _ fs _, .inl op => OpQuietFields id fs op
  | .cons _ _ _ vs, .inr op => OpQuietVariant id vs op
end

/-- The typical closure: create the value at the given runtime, then make API calls on it. -/
def building (t : Ty) (m : Mode) (ops : List t.Op) (rt : Rt) : Exec t.El := calls t m ops (t.dict.withRuntime rt)

end Steit.Spec
