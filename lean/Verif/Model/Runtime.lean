import Verif.Model.Basic

/-! # Runtimes (`steit/src/rt/runtime.rs`, `steit/src/rt/node.rs`) -/

namespace Steit

/-- A `Runtime`, `steit/src/rt/runtime.rs:20-26`: which logger it shares (an `Arc` identity) and the path to the object,
`Arc<Node<u32>>`, as the list of field numbers from the root (`Node::collect_values`, `steit/src/rt/node.rs:41-55`;
`Verif/Model/Node.lean` models the linked nodes and proves this representation adequate).
Logger 0 stands for the private buffer loggers that `Runtime::new` creates (`runtime.rs:45-47`): no handle to them is
ever returned, so what they record is unobservable. -/
structure Rt where
  logger : Nat
  path : List U32
  deriving DecidableEq, Repr

namespace Rt

/-- `Runtime::default`, `steit/src/rt/runtime.rs:158-162`. -/
def dflt : Rt := ⟨0, []⟩

/-- `Runtime::nested`, `steit/src/rt/runtime.rs:65-70`. -/
def nested (rt : Rt) (fieldNumber : U32) : Rt := ⟨rt.logger, rt.path ++ [fieldNumber]⟩

/-- `Runtime::parent`, `steit/src/rt/runtime.rs:72-77`; panics on the root (`node.rs:23-26`). -/
def parent (rt : Rt) : Except Err Rt :=
  if rt.path = [] then .error .panic else .ok ⟨rt.logger, rt.path.dropLast⟩

/-- `Runtime::sibling`, `steit/src/rt/runtime.rs:79-84`; panics on the root. -/
def sibling (rt : Rt) (fieldNumber : U32) : Except Err Rt :=
  if rt.path = [] then .error .panic else .ok ⟨rt.logger, rt.path.dropLast ++ [fieldNumber]⟩

/-- `Runtime::is_root`, `steit/src/rt/runtime.rs:90-95`. -/
def isRoot (rt : Rt) : Bool := rt.path.isEmpty

end Rt

end Steit
