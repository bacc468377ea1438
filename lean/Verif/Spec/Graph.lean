import Verif.Model.Collect

/-!
# Reachability in type graphs
-/

namespace Steit.Gen.Spec

/-- `n` can be reached from `root` by following links. -/
inductive Reach {ν : Type} (links : ν → List ν) (root : ν) : ν → Prop
  | root : Reach links root root
  | link {m n : ν} : Reach links root m → n ∈ links m → Reach links root n

/-- A message reachable from `root`. -/
def Refers {ν : Type} (G : Graph ν) (root : ν) (m : MessageMeta) : Prop := ∃ n, Reach G.links root n ∧ G.msg n = some m

/-- Finitely many nodes can be reached. -/
def Finite {ν : Type} (G : Graph ν) (root : ν) : Prop := ∃ nodes : List ν, ∀ n, Reach G.links root n → n ∈ nodes

/-- A way from `root` to `n` along links; `passed` are the nodes on the way, the last one first, without `n`. -/
inductive Walk {ν : Type} (links : ν → List ν) (root : ν) : (passed : List ν) → ν → Prop
  | root : Walk links root [] root
  | link {passed : List ν} {m n : ν} : Walk links root passed m → n ∈ links m → Walk links root (m :: passed) n

/-- What a traversal guided by types relies on. Some nodes only stand for others (`core n` is the node `n` stands for, or `n` itself):
they have the type of the other node, no message, links to what stands for the same node, and cannot be reached without passing
that node. Of all others, nodes of equal type carry equal messages behind their links. -/
structure TypesTell {ν : Type} (G : Graph ν) (core : ν → ν) (root : ν) : Prop where
  same : ∀ n, core (core n) = core n
  type : ∀ n, G.type (core n) = G.type n
  stands : ∀ n, Reach G.links root n → core n ≠ n → G.msg n = none ∧ (∀ c ∈ G.links n, core c = core n) ∧
    ∀ passed, Walk G.links root passed n → core n ∈ passed
  tell : ∀ a b, Reach G.links root a → Reach G.links root b → core a = a → core b = b → G.type a = G.type b →
    (G.links a).map (fun n => (G.type n, G.msg (core n))) = (G.links b).map (fun n => (G.type n, G.msg (core n)))

/-- The content of (boxes of) a box; other types themselves. -/
def unboxed {M : Type} : RTy M → RTy M
  | .box t => unboxed t
  | t => t

/-- Boxes are used for recursion only: where a `Box<T>` can be found, one is inside a `T` already. -/
def BoxesRecur {M : Type} (P : Program M) (root : RTy M) : Prop :=
  ∀ t passed, Walk P.graph.links root passed (.box t) → unboxed t ∈ passed

/-- Types in which no `Box` occurs. -/
inductive NoBox {M : Type} : RTy M → Prop
  | prim {r c w} : NoBox (.prim r c w)
  | bytes : NoBox .bytes
  | vec {t} : NoBox t → NoBox (.vec t)
  | array {n t} : NoBox t → NoBox (.array n t)
  | option {t} : NoBox t → NoBox (.option t)
  | list {t} : NoBox t → NoBox (.list t)
  | map {k t} : NoBox t → NoBox (.map k t)
  | msg {m} : NoBox (.msg m)

/-- Messages of a program are told apart by their names and type arguments: equal ones have equal metadata and fields of equal types,
and none is named like a type of the library. -/
structure Told {M : Type} (P : Program M) : Prop where
  same : ∀ m m', P.name m = P.name m' → P.args m = P.args m' →
    P.message m = P.message m' ∧ (P.fields m).map (RTy.type P) = (P.fields m').map (RTy.type P)
  fresh : ∀ m, P.name m ∉ [⟨"Bytes", none⟩, ⟨"Vec", some "Vector"⟩, ⟨"Option", some "Option"⟩, ⟨"List", some "StateList"⟩,
    ⟨"Map", some "StateMap"⟩]

end Steit.Gen.Spec
