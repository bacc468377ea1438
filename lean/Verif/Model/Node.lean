import Verif.Model.Runtime

/-!
# Linked paths (`steit/src/rt/node.rs`)

The model keeps a path as a list (`Rt.path`); the code keeps a linked list towards the root. This file models the linked
form, and shows that the two agree, so that nothing is lost in using lists elsewhere.
-/

namespace Steit

/-- `Node<u32>`, `steit/src/rt/node.rs:3-6` (`Arc` sharing is invisible: nodes are immutable). -/
inductive Node
  | root
  | child (parent : Node) (value : U32)
  deriving DecidableEq, Repr

namespace Node

/-- `Node::parent`, `steit/src/rt/node.rs:16-26`; panics on the root. -/
def parent : Node → Except Err Node
  | root => .error .panic
  | child p _ => .ok p

/-- `Node::collect_values_to`, `steit/src/rt/node.rs:41-49`: the values pushed after those in `values`. -/
def collectTo : Node → List U32 → List U32
  | root, values => values
  | child p v, values => collectTo p values ++ [v]

/-- `Node::collect_values`, `steit/src/rt/node.rs:51-55`. -/
def collect (n : Node) : List U32 := n.collectTo []

end Node

/-- `Runtime` as in `steit/src/rt/runtime.rs:20-26`, with the linked path. -/
structure LinkedRt where
  logger : Nat
  path : Node
  deriving DecidableEq, Repr

namespace LinkedRt

/-- `Runtime::nested`, `steit/src/rt/runtime.rs:65-70`. -/
def nested (rt : LinkedRt) (fieldNumber : U32) : LinkedRt := ⟨rt.logger, .child rt.path fieldNumber⟩

/-- `Runtime::parent`, `steit/src/rt/runtime.rs:72-77`. -/
def parent (rt : LinkedRt) : Except Err LinkedRt := do
  let p ← rt.path.parent
  .ok ⟨rt.logger, p⟩

/-- `Runtime::sibling`, `steit/src/rt/runtime.rs:79-84`. -/
def sibling (rt : LinkedRt) (fieldNumber : U32) : Except Err LinkedRt := do
  let p ← rt.path.parent
  .ok ⟨rt.logger, .child p fieldNumber⟩

/-- `Runtime::is_root`, `steit/src/rt/runtime.rs:90-95`. -/
def isRoot (rt : LinkedRt) : Bool :=
  match rt.path with
  | .root => true
  | .child _ _ => false

/-- The list form used by the rest of the model. (`steit/src/rt/node.rs:3-6,40-56`.) -/
def toRt (rt : LinkedRt) : Rt := ⟨rt.logger, rt.path.collect⟩

theorem collectTo_append (n : Node) (values : List U32) : n.collectTo values = values ++ n.collect := by
  induction n with
  | root => simp [Node.collectTo, Node.collect]
  | child p v ih => simp only [Node.collect, Node.collectTo] at *; rw [ih, List.append_assoc]

theorem toRt_nested (rt : LinkedRt) (n : U32) : (rt.nested n).toRt = rt.toRt.nested n := rfl

theorem collect_child_ne (p : Node) (v : U32) : (Node.child p v).collect ≠ [] := by
  simp [Node.collect, Node.collectTo]

theorem toRt_parent (rt : LinkedRt) : rt.parent.map toRt = rt.toRt.parent := by
  rcases rt with ⟨l, _ | ⟨p, v⟩⟩
  · rfl
  · show Except.ok _ = Rt.parent _
    simp [Rt.parent, toRt, Node.collect, Node.collectTo]

theorem toRt_sibling (rt : LinkedRt) (n : U32) : (rt.sibling n).map toRt = rt.toRt.sibling n := by
  rcases rt with ⟨l, _ | ⟨p, v⟩⟩
  · rfl
  · show Except.ok _ = Rt.sibling _ _
    simp [Rt.sibling, toRt, Node.collect, Node.collectTo]

theorem toRt_isRoot (rt : LinkedRt) : rt.isRoot = rt.toRt.isRoot := by
  rcases rt with ⟨l, _ | ⟨p, v⟩⟩
  · rfl
  · simp [isRoot, toRt, Rt.isRoot, Node.collect, Node.collectTo]

/-- Every list path is the path of exactly one linked node. -/
theorem collect_injective {a b : Node} (h : a.collect = b.collect) : a = b := by
  induction a generalizing b with
  | root =>
    cases b with
    | root => rfl
    | child p v => exact absurd h.symm (collect_child_ne p v)
  | child p v ih =>
    cases b with
    | root => exact absurd h (collect_child_ne p v)
    | child q w =>
      simp only [Node.collect, Node.collectTo] at h
      have := List.append_inj' h rfl
      rw [ih this.1]
      simpa using this.2

end LinkedRt

end Steit
