import Verif.Model.Interleave
import Verif.Spec.Only
import Verif.Spec.Part

/-!
# Specification: what threads sharing a logger do to it
-/

namespace Steit.Spec

/-- `out` is an interleaving of the lists `ls`: it consists of their elements, those of each list in their order. -/
inductive Merge {β : Type} : List (List β) → List β → Prop
  | done {ls : List (List β)} : (∀ l ∈ ls, l = []) → Merge ls []
  | take {ls : List (List β)} {i : Nat} {a : β} {l out : List β} :
    ls[i]? = some (a :: l) → Merge (ls.set i l) out → Merge ls (a :: out)

/-- What code does to a logger. `block es` is a `log` or `log_multi`. -/
inductive Act
  | pause
  | unpause
  | block (es : List Entry)

/-- The effect on the logger. -/
def Act.on : Act → LoggerSt → LoggerSt
  | .pause, l => l.pause
  | .unpause, l => l.unpause
  | .block es, l => logMulti LoggerSt.log l es

/-- Code that uses the logger `id` only, and does not look into it. With `d` pauses of its own not yet undone before it, there
are `d'` after it, unless it panics. Without `win`, it neither pauses nor unpauses. -/
inductive Tame {α : Type} (win : Bool) (id : Nat) : Nat → Exec α → Nat → Prop
  | ok {d : Nat} (a : α) : Tame win id d (.ret (.ok a)) d
  | panic {d d' : Nat} (e : Err) : Tame win id d (.ret (.error e)) d'
  | block {d d' : Nat} (es : List Entry) {k : Exec α} :
    Tame win id d k d' → Tame win id d (.act id (fun l => logMulti LoggerSt.log l es) (fun _ => k)) d'
  | pause {d d' : Nat} {k : Exec α} : win = true → Tame win id (d + 1) k d' → Tame win id d (.act id LoggerSt.pause (fun _ => k)) d'
  | unpause {d d' : Nat} {k : Exec α} :
    win = true → Tame win id d k d' → Tame win id (d + 1) (.act id LoggerSt.unpause (fun _ => k)) d'
  | mem {d d' : Nat} {k : Prog.Mem → Exec α} : (∀ μ, Tame win id d (k μ) d') → Tame win id d (.mem k) d'

mutual
/-- API calls that use the logger of their object only. `win` says whether calls with a pause window (`List::push` and the
`…_with` methods) are among them. -/
def OpTame (win : Bool) : (t : Ty) → t.Op → Prop
  | .box t, op => OpTame win t op
  | .list t, op =>
    match op with
    | .item _ op => OpTame win t op
    | .push _ => win = true
    | .pushWith f => win = true ∧ ∀ rt, Tame win rt.logger 0 (f rt) 0
    | .pop => True
    | .swapRemove _ => True
  | .map _ t, op =>
    match op with
    | .value _ op => OpTame win t op
    | .insert _ _ => True
    | .insertWith _ f => win = true ∧ ∀ rt, Tame win rt.logger 0 (f rt) 0
    | .remove _ => True
  | .struct true _ fs, op => OpTameFields win fs op
  | .enum true _ fs vs, op =>
    match op with
    | .inl op => OpTameFields win fs op
    | .inr op => OpTameVariant win vs op
  | _, _ => True

/-- Fields. -/
def OpTameFields (win : Bool) : (fs : Fields) → fs.Op → Prop
  | .nil, _ => True
  | .cons _ attrs t _, .inl op =>
    match op with
    | .inner op => attrs.noState = false ∧ OpTame win t op
    | .setWith f => win = true ∧ ∀ rt, Tame win rt.logger 0 (f rt) 0
    | .set _ => True
  | .cons _ _ _ fs, .inr op => OpTameFields win fs op

/-- Variants. -/
def OpTameVariant (win : Bool) : (vs : Variants) → vs.Op → Prop
  | .nil, _ => True
  | .cons _ _ fs _, .inl op => OpTameFields win fs op
  | .cons _ _ _ vs, .inr op => OpTameVariant win vs op
end

/-- Calls one after the other, each made where it keeps addresses right. -/
def CallsTame (win : Bool) (t : Ty) (m : Mode) : List t.Op → t.El → Prop
  | [], _ => True
  | op :: ops, v => OpAddr t op v ∧ OpTame win t op ∧ ∀ w v' w', t.run m op v w = (.ok v', w') → CallsTame win t m ops v'

/-- A thread making API calls on an object of its own (a whole state or a part of one), at `rt`. -/
structure Worker where
  t : Ty
  m : Mode
  ops : List t.Op
  v : t.El
  rt : Rt

namespace Worker

/-- The code it runs. -/
def code (k : Worker) : Exec k.t.El := calls k.t k.m k.ops k.v

/-- Its type is well-formed, its object sits at its address, with the logger `id`, and its calls are tame. -/
def Ok (win : Bool) (id : Nat) (k : Worker) : Prop :=
  k.t.WF ∧ At k.t k.rt k.v ∧ k.rt.logger = id ∧ CallsTame win k.t k.m k.ops k.v

/-- Running alone, with the logger `id` not paused, it ends with `r` and logs the given blocks. -/
def Alone (k : Worker) (id : Nat) (r : Except Err k.t.El) (blocks : List (List Entry)) : Prop :=
  ∀ ls : Nat → LoggerSt, (ls id).paused = 0 → ∃ w w', w.loggers = ls ∧ k.code w = (r, w') ∧
    w'.loggers id = ⟨0, (ls id).entries ++ blocks.flatten⟩

end Worker

/-- The object `old` at `path` replaced by `new`. -/
structure Change where
  path : List U32
  t : Ty
  old : t.El
  new : t.El

/-- Making the changes in the state `v`, one after the other, gives `v'`. -/
inductive Replaced (t : Ty) : t.El → List Change → t.El → Prop
  | nil (v : t.El) : Replaced t v [] v
  | cons {v v' : t.El} {c : Change} {cs : List Change} {put : c.t.El → t.El} :
    Part t v c.path c.t c.old put → Replaced t (put c.new) cs v' → Replaced t v (c :: cs) v'

end Steit.Spec
