import Verif.Lemmas.BoundsDecide
import Verif.Lemmas.BoundsPlain
import Verif.Lemmas.BoundsWritten
import Verif.Props.AsWritten

/-!
# C75: generic messages

The derive macro adds bounds to the type parameters of the `impl` blocks it writes. Are they the right ones: enough for the code in the
blocks, and no more than a user of the message can give?
-/

namespace Steit.Bounds

open Steit.Bounds.Spec

variable {D : Type} {P : D → Decl D} {env : Env}

/-! ## What compiles works at all instances -/

/-- C75. In a program that compiles, a type that implements a trait implements its supertraits: there is no instance of a message that
can be serialized but has no wire type, or that is a state but has no default value. -/
theorem C75_supertraits (hP : ∀ d, Compiles P d) {tr tr' : Trait} {t : Exp D} (h : Holds P env tr t) (h' : Supertrait tr tr') :
    Holds P env tr' t :=
  holds_closure hP h tr' (supertrait_iff.1 h')

/-- C75. In a program that compiles, wherever an instance of a message is used as something it derives, all that the derived code asks
for is there, with the arguments for the type parameters. -/
theorem C75_instances (hP : ∀ d, Compiles P d) {d : D} {tr : Trait} {b : Block D} (hb : b ∈ (P d).blocks d) (ho : b.of = some tr)
    {args : Exps D} (h : Holds P env tr (.app (.msg d) args)) {tr' : Trait} {t : Exp D} (hn : Need.impl tr' t ∈ b.needs) :
    Holds P env tr' (t.subst (bind (P d).params args)) := by
  have hb' : (P d).block d tr = some b := by
    rcases mem_blocks.1 hb with ⟨_, rfl⟩ | ⟨_, rfl⟩ | ⟨tr₁, hb'⟩
    · cases ho
    · rw [setters_of] at ho
      cases ho
    · have := block_of hb'
      rw [ho] at this
      cases this
      exact hb'
  exact instance_needs hP hb' h hn

/-- C75. In a program that compiles, instances of messages that derive `State` are states exactly if they can be deserialized. -/
theorem C75_state_iff_deserialize (hP : ∀ d, Compiles P d) {d : D} (hs : (P d).request.state = true) (args : Exps D) :
    Holds P env .state (.app (.msg d) args) ↔ Holds P env .deserialize (.app (.msg d) args) :=
  ⟨fun h => holds_closure hP h _ (by decide), fun h => state_of_deserialize hP hs h⟩

/-! ## What compiles -/

/-- C75. A declaration compiles exactly if it is good: fields have what is derived, given that type parameters do; and nothing is missing
that the macro does not take care of. -/
theorem C75_compiles_exactly (d : D) : Compiles P d ↔ Good P d := 
  ⟨fun h => goodFor_iff.1 (good_of_compiles h), fun h => compiles_of_good (goodFor_iff.2 h)⟩

/-- C75. Programs of states, with `T: State` for all type parameters, compile. -/
theorem C75_states_compile (hP : Plain P) (d : D) : Compiles P d := compiles_of_good (plain_good hP d)

/-! ## What one has to know -/

/-- C75 is false for structs with `State` if `T: State` is not written: the block of `Deserialize` gets `T: Deserialize` only, and its
supertrait `Default` is implemented for `T: State`. -/
theorem C75_struct_needs_bounds {d : D} (hb : (P d).body.isEnum = false) (hs : (P d).request.state = true) {p : String} {bs : List Trait}
    (hp : (p, bs) ∈ (P d).params) (hn : .state ∉ bs) : ¬ Compiles P d := by
  intro h
  obtain ⟨b, hb', hc⟩ := (good_of_compiles h).state_bounds hb hs _ hp
  have := supertrait_iff.1 hc
  cases b <;> simp [Trait.closure] at this
  exact hn hb'

/-- C75 is false for `Default` alone: it calls a constructor that is not derived. -/
theorem C75_default_needs_ctors {d : D} (hd : (P d).request.default = true) (h1 : ¬ AsksRead (P d).request)
    (h2 : (P d).request.deriveCtors = false) : ¬ Compiles P d := by
  intro h
  rcases (goodFor_iff.1 (good_of_compiles h)).default_ctors hd with h' | h'
  · exact h1 h'
  · rw [h2] at h'; cases h'

/-- C75 is false for `derive_setters` alone, of enums: setters call constructors that are not derived. -/
theorem C75_enum_setters_need_ctors {d : D} (hb : (P d).body.isEnum = true) (hs : (P d).request.deriveSetters = true)
    (hf : (P d).body.fields ≠ []) (h1 : ¬ AsksRead (P d).request) (h2 : (P d).request.deriveCtors = false) : ¬ Compiles P d := by
  intro h
  rcases (goodFor_iff.1 (good_of_compiles h)).setters_ctors hb hs hf with h' | h'
  · exact h1 h'
  · rw [h2] at h'; cases h'

/-! ## Programs as written -/

open Steit.Gen Steit.Gen.Spec

/-- C75, in terms of what is written: which declarations compile, given that the macro accepts them. -/
theorem C75_compiles_as_written {Q : D → Src D} {bounds : D → String → List Trait} (hM : ∀ d ty, (Derive.derive ((Q d).input ty)).1 = [])
    (d : D) : Compiles (bounded Q bounds) d ↔ GoodSrc Q bounds d :=
  (C75_compiles_exactly d).trans (good_written hM d)

/-- C75, for C71: the part of `Accepted` that is about types follows from what the compiler checks, once for each declaration, whatever
instances there are. -/
theorem C75_accepted {Q : D → Src D} {bounds : D → String → List Trait} {root : RTy (Inst D)} (h : Rust Q bounds root)
    (works : ∀ d args, Reach (declared Q).program.graph.links root (.msg (.mk d args)) → ∀ f ∈ (Q d).body.fields,
      Works f.ty (f.ty.resolve (bindParams (Q d).params args)))
    (builds : ∀ m, Reach (declared Q).program.graph.links root (.msg m) → Builds Q (.msg m))
    (finite : ∃ ms : List (Inst D), ∀ m, Reach (declared Q).program.graph.links root (.msg m) → m ∈ ms) : Accepted Q root where
  legal := legal_of_sound h.macro' h.compiles ⟨h.rootReal, h.rootExists, h.rootDeserialize⟩
  macro' m _ ty := h.macro' m.decl ty
  fields d args hr f hf := by
    have hs := sound_reach h hr
    refine ⟨legal_of_sound h.macro' h.compiles (sound_field h.compiles h.real hs hf), fun ha hn => ?_⟩
    refine isState_of_holds h.macro' (state_field h.compiles hs ((state_flag h.macro' d).2 ha) hf ?_)
    cases hf' : f.bounded.noState with
    | false => rfl
    | true => exact absurd ((noState_flag h.macro' hf).1 hf') hn
  works := works
  builds := builds
  finite := finite

/-! ## Declarations of the repository -/

/-- Messages of `steit-derive/test-crate/src/lib.rs:18-244`, and `Maybe` of the library, `steit/src/types/maybe.rs:9-21`. -/
inductive TestD
  | foo
  | bar
  | maybe
  | animal
  | sure
  | actionsOr
  | oldAction
  | oldHit
  | action
  | attack
  | hit
  | skill
  | hello
  | outer
  | inner
  | multicase
  | woof
  | libMaybe
  deriving DecidableEq

/-- A type without arguments. -/
def prim (p : Prim) : Exp TestD := .app (.prim p) .nil

/-- With one argument. -/
def app₁ {D : Type} (c : Con D) (t : Exp D) : Exp D := .app c (.cons t .nil)

/-- A message without parameters. -/
def msg (d : TestD) : Exp TestD := .app (.msg d) .nil

/-- A field with a tag and nothing else. -/
def fld {D : Type} (t : Exp D) : Field D := ⟨t, false, false, false⟩

/-- `steit-derive/test-crate/src/lib.rs:18-244`, `steit/src/types/maybe.rs:9-21`. -/
def testDecls : TestD → Decl TestD
  | .foo => ⟨{ state := true }, [], .enum [[fld (prim .i32), fld (prim .bool)], [fld (prim .i32), fld (prim .bool)], [], [], []]⟩
  | .bar => ⟨{ partialEq := true, serialize := true, deserialize := true }, [], .struct [fld (prim .i32), fld (prim .bool)]⟩
  | .maybe => ⟨{ state := true }, [("T", [])], .enum [[], [fld (.param "T")]]⟩
  | .animal => ⟨{ state := true }, [("A", []), ("B", []), ("C", [])], .enum [
      [fld (app₁ (.msg .maybe) (.param "A"))],
      [fld (prim .i32), fld (.param "B")],
      [fld (prim .i32), fld (app₁ (.msg .maybe) (app₁ (.msg .maybe) (.param "C")))],
      [fld (app₁ (.msg .maybe) (prim .u8))],
      []]⟩
  | .sure => ⟨{ serialize := true, deserialize := true }, [("T", [])], .struct [fld (.param "T")]⟩
  | .actionsOr => ⟨{ serialize := true, deserialize := true }, [("T", [])], .enum [
      [fld (app₁ .vec (msg .action))], [fld (.param "T")]]⟩
  | .oldAction => ⟨{ state := true }, [], .enum [
      [fld (app₁ .list (prim .u8))],
      [fld (prim .u8), fld (prim .u8), fld (app₁ .list (msg .oldHit))]]⟩
  | .oldHit => ⟨{ state := true }, [], .struct [
      fld (app₁ .box (msg .oldAction)), fld (app₁ .box (msg .oldAction)), fld (app₁ .box (msg .oldAction)),
      fld (app₁ .box (msg .oldAction)), fld (app₁ .box (msg .oldAction)), fld (prim .i32)]⟩
  | .action => ⟨{ serialize := true, deserialize := true }, [], .enum [
      [],
      [fld (prim .u16), fld (app₁ .vec (msg .action)), fld (app₁ .vec (msg .action))],
      [],
      [fld (prim .u16), fld (prim .u32), fld (app₁ .vec (msg .action)),
        fld (app₁ (.msg .actionsOr) (app₁ .vec (app₁ (.msg .actionsOr) (msg .attack)))), fld (app₁ .vec (msg .action))],
      [fld (prim .u16), fld (prim .u32), fld (app₁ .vec (msg .action)),
        fld (app₁ (.msg .actionsOr) (app₁ .vec (app₁ (.msg .actionsOr) (msg .skill)))), fld (app₁ .vec (msg .action))]]⟩
  | .attack => ⟨{ serialize := true, deserialize := true }, [], .struct [
      fld (prim .u16), fld (app₁ .vec (msg .action)),
      fld (app₁ (.msg .actionsOr) (app₁ .vec (app₁ (.msg .actionsOr) (msg .hit)))), fld (app₁ .vec (msg .action))]⟩
  | .hit => ⟨{ serialize := true, deserialize := true }, [], .struct [
      fld (prim .bool), fld (app₁ .vec (msg .action)), fld (app₁ .vec (msg .action)), fld (app₁ .vec (msg .action))]⟩
  | .skill => ⟨{ serialize := true, deserialize := true }, [], .struct [
      fld (prim .u16), fld (app₁ .vec (msg .action)), fld (app₁ .vec (msg .action)),
      fld (app₁ .vec (app₁ (.msg .sure) (msg .action)))]⟩
  | .hello => ⟨{ state := true }, [], .struct [fld (app₁ .list (prim .i32)), { fld (app₁ .vec (prim .i32)) with noState := true }]⟩
  | .outer => ⟨{ state := true }, [], .struct [fld (prim .i32), fld (prim .bool), fld (msg .inner)]⟩
  | .inner => ⟨{ state := true }, [], .struct [fld (prim .i32), fld (prim .bool)]⟩
  | .multicase => ⟨{ state := true }, [], .enum [[fld (prim .i32), fld (prim .bool)], [fld (prim .i32), fld (prim .bool)]]⟩
  | .woof => ⟨{ state := true }, [], .struct [fld (.app .map (.cons (prim .u16) (.cons (prim .i32) .nil)))]⟩
  | .libMaybe => ⟨{ state := true, partialEq := true, eq := true, hash := true }, [("T", [.state])], .enum [
      [], [fld (.param "T")]]⟩

/-- They compile. -/
theorem testDecls_compile (d : TestD) : Compiles testDecls d := by cases d <;> decide +kernel

/-- `ActionsOr<Sure<Animal<u8, Maybe<u8>, bool>>>` has wire type, default value, and what is in `Value` has. -/
example : Holds testDecls [] .default (app₁ (.msg .actionsOr) (app₁ (.msg .sure)
    (.app (.msg .animal) (.cons (prim .u8) (.cons (app₁ (.msg .maybe) (prim .u8)) (.cons (prim .bool) .nil)))))) :=
  C75_supertraits testDecls_compile (tr := .deserialize) (by decide +kernel) (.step (b := .default) (by decide) .refl)

/-- What `Deserialize` of `Animal` asks for is there: here, of the third variant of `Animal<u8, u16, bool>`. -/
example : Holds testDecls [] .deserialize (app₁ (.msg .maybe) (app₁ (.msg .maybe) (prim .bool))) :=
  C75_instances testDecls_compile (d := .animal) (b := (testDecls .animal).deserialize .animal) (tr := .deserialize)
    (t := app₁ (.msg .maybe) (app₁ (.msg .maybe) (.param "C"))) (mem_blocks.2 (.inr (.inr ⟨.deserialize, rfl⟩))) rfl
    (args := .cons (prim .u8) (.cons (prim .u16) (.cons (prim .bool) .nil))) (by decide +kernel)
    (List.mem_append_left _ (List.mem_map.2 ⟨fld (app₁ (.msg .maybe) (app₁ (.msg .maybe) (.param "C"))),
      .tail _ (.tail _ (.tail _ (.tail _ (.head _)))), rfl⟩))

/-- `Maybe<String>` of the tests can be serialized, but it is no state, and cannot be deserialized. -/
example : Holds testDecls [] .serialize (app₁ (.msg .maybe) (prim .string)) ∧
    ¬ Holds testDecls [] .deserialize (app₁ (.msg .maybe) (prim .string)) ∧ ¬ Holds testDecls [] .state (app₁ (.msg .maybe) (prim .string)) := by
  decide +kernel

/-! ## Others -/

/-- `struct S<T> { value: T }` with `State`, as struct and as an enum with one variant; `struct D { n: u32 }` with `Default`;
`enum E { A { n: u32 } }` with `derive_setters`. -/
def badDecls : Fin 4 → Decl (Fin 4)
  | 0 => ⟨{ state := true }, [("T", [])], .struct [⟨.param "T", false, false, false⟩]⟩
  | 1 => ⟨{ state := true }, [("T", [])], .enum [[⟨.param "T", false, false, false⟩]]⟩
  | 2 => ⟨{ default := true }, [], .struct [⟨.app (.prim .u32) .nil, false, false, false⟩]⟩
  | 3 => ⟨{ serialize := true, deriveSetters := true }, [], .enum [[⟨.app (.prim .u32) .nil, false, false, false⟩]]⟩

/-- The struct with `State` does not compile, the enum does. -/
example : ¬ Compiles badDecls 0 ∧ Compiles badDecls 1 :=
  ⟨C75_struct_needs_bounds rfl rfl (.head _) (by decide), by decide +kernel⟩

/-- `Default` without constructors, setters of an enum without constructors. -/
example : ¬ Compiles badDecls 2 ∧ ¬ Compiles badDecls 3 :=
  ⟨C75_default_needs_ctors rfl (by unfold AsksRead; decide +kernel) rfl,
    C75_enum_setters_need_ctors rfl rfl (by decide +kernel) (by unfold AsksRead; decide +kernel) rfl⟩

/-- `Node<T: State> { item: T, next: Opt<Box<Node<T>>>, marks: Vec<u16> }`, where `Opt<T: State>` is as `Maybe`. -/
inductive NodeD
  | node
  | opt
  deriving DecidableEq

/-- As written. -/
def nodeSrc : NodeD → Src NodeD
  | .node => ⟨[.attr (.path "State"), .attr (.path "PartialEq")], [], "Node", ["T"], .struct [
      ⟨[.steit [tagAttr 0]], "item", .param "T"⟩,
      ⟨[.steit [tagAttr 1]], "next", .msg .opt (.cons (.box (.msg .node (.cons (.param "T") .nil))) .nil)⟩,
      ⟨[.steit [tagAttr 2, .attr (.path "no_state")]], "marks", .vec (.prim "u16" "UInt16" .varint)⟩]⟩
  | .opt => ⟨[.attr (.path "State"), .attr (.path "PartialEq")], [], "Opt", ["T"], .enum [
      ⟨[.steit [tagAttr 0]], "Opt_No", []⟩,
      ⟨[.steit [tagAttr 1]], "Opt_Yes", [⟨[.steit [tagAttr 0]], "value", .param "T"⟩]⟩]⟩

/-- `T: State`. -/
def nodeBounds : NodeD → String → List Trait := fun _ _ => [.state]

/-- A program of states. -/
example : Plain (bounded nodeSrc nodeBounds) where
  state d := by cases d <;> decide +kernel
  partialEq d := by cases d <;> decide +kernel
  eq d := by cases d <;> decide +kernel
  hash d := by cases d <;> decide +kernel
  noMeta d := by cases d <;> decide +kernel
  names d := by cases d <;> decide +kernel
  bounds d p hp := by
    cases d <;> rcases List.mem_singleton.1 (show p ∈ [_] from hp) with rfl <;> rfl
  fields d f hf := by
    rw [bounded_fields] at hf
    have hT : "T" ∈ ["T"] := by decide
    cases d with
    | node =>
      have hf : f ∈ [_, _, _] := hf
      simp only [List.mem_cons, List.not_mem_nil, or_false] at hf
      rcases hf with rfl | rfl | rfl
      · exact (if_neg (by decide +kernel)).mpr (.param hT)
      · exact (if_neg (by decide +kernel)).mpr (.msg rfl (.cons (.box (.msg rfl (.cons (.param hT) .nil))) .nil))
      · exact (if_pos (by decide +kernel)).mpr (.vec (.state (.prim (by decide) (by decide))))
    | opt =>
      have hf : f ∈ [_] := hf
      cases List.mem_singleton.1 hf
      exact (if_neg (by decide +kernel)).mpr (.param hT)

/-- Messages that cannot be compared (0) or not be hashed (1), and messages with such fields. -/
def flagSrc : Fin 5 → Src (Fin 5)
  | 0 => ⟨[.attr (.path "Serialize")], [], "Raw", [], .struct []⟩
  | 1 => ⟨[.attr (.path "Serialize"), .attr (.path "PartialEq")], [], "Cooked", [], .struct []⟩
  | 2 => ⟨[.attr (.path "Serialize"), .attr (.path "PartialEq"), .attr (.path "Hash")], [], "Both", [], .struct [
      ⟨[.steit [tagAttr 0, .attr (.path "no_eq_hash")]], "raw", .msg 0 .nil⟩,
      ⟨[.steit [tagAttr 1, .attr (.path "no_hash")]], "cooked", .msg 1 .nil⟩]⟩
  | 3 => ⟨[.attr (.path "Serialize"), .attr (.path "PartialEq"), .attr (.path "Hash")], [], "NoEq", [], .struct [
      ⟨[.steit [tagAttr 0, .attr (.path "no_hash")]], "raw", .msg 0 .nil⟩]⟩
  | 4 => ⟨[.attr (.path "Serialize"), .attr (.path "PartialEq"), .attr (.path "Hash")], [], "NoHash", [], .struct [
      ⟨[.steit [tagAttr 0]], "cooked", .msg 1 .nil⟩]⟩

/-- Not vacuous: `no_eq_hash` is for fields that cannot be compared, `no_hash` is enough for those that can, and is needed. -/
example : (∀ d ty, (Derive.derive ((flagSrc d).input ty)).1 = []) ∧
    GoodSrc flagSrc (fun _ _ => []) 2 ∧ ¬ GoodSrc flagSrc (fun _ _ => []) 3 ∧ ¬ GoodSrc flagSrc (fun _ _ => []) 4 := by
  have hM : ∀ d ty, (Derive.derive ((flagSrc d).input ty)).1 = [] := by
    intro d ty
    exact C71_accepts_text _ (fun _ => .bool) ty (by revert d; decide +kernel)
  refine ⟨hM, (C75_compiles_as_written hM 2).1 (by decide +kernel), fun h => ?_, fun h => ?_⟩
  · exact absurd ((C75_compiles_as_written hM 3).2 h) (by decide +kernel)
  · exact absurd ((C75_compiles_as_written hM 4).2 h) (by decide +kernel)

/-- `Node<u32>`. -/
def nodeRoot : RTy (Inst NodeD) := .msg (.mk .node [.prim "u32" "UInt32" .varint])

theorem nodeSrc_rust : Rust nodeSrc nodeBounds nodeRoot where
  macro' d ty := C71_accepts_text _ (fun _ => .bool) ty (by cases d <;> decide +kernel)
  compiles d := by cases d <;> decide +kernel
  real d f hf := by
    cases d with
    | node =>
      have hf : f ∈ [_, _, _] := hf
      simp only [List.mem_cons, List.not_mem_nil, or_false] at hf
      rcases hf with rfl | rfl | rfl
      · trivial
      · exact ⟨⟨trivial, trivial⟩, trivial⟩
      · exact ⟨.uint .w16, rfl⟩
    | opt =>
      have hf : f ∈ [_] := hf
      cases List.mem_singleton.1 hf
      trivial
  rootReal := ⟨⟨.uint .w32, rfl⟩, trivial⟩
  rootExists := by decide +kernel
  rootDeserialize := by decide +kernel

/-- A generic program that compiles is accepted: C71 is about it. -/
theorem nodeSrc_accepted : Accepted nodeSrc nodeRoot := by
  have hreach : ∀ a, Reach (declared nodeSrc).program.graph.links nodeRoot a → a ∈ ([nodeRoot, .prim "u32" "UInt32" .varint,
      .msg (.mk .opt [.box nodeRoot]), .box nodeRoot, .vec (.prim "u16" "UInt16" .varint), .prim "u16" "UInt16" .varint] : List (RTy (Inst NodeD))) := by
    intro a ha
    induction ha with
    | root => exact .head _
    | link _ hl ih =>
      simp only [List.mem_cons, List.not_mem_nil, or_false] at ih
      rcases ih with rfl | rfl | rfl | rfl | rfl | rfl
      · obtain ⟨f, hf, rfl⟩ := field_of_link hl
        have hf : f ∈ [_, _, _] := hf
        simp only [List.mem_cons, List.not_mem_nil, or_false] at hf
        rcases hf with rfl | rfl | rfl
        · exact .tail _ (.head _)
        · exact .tail _ (.tail _ (.head _))
        · exact .tail _ (.tail _ (.tail _ (.tail _ (.head _))))
      · cases hl
      · obtain ⟨f, hf, rfl⟩ := field_of_link hl
        have hf : f ∈ [_] := hf
        cases List.mem_singleton.1 hf
        exact .tail _ (.tail _ (.tail _ (.head _)))
      · cases List.mem_singleton.1 hl
        exact .head _
      · cases List.mem_singleton.1 hl
        exact .tail _ (.tail _ (.tail _ (.tail _ (.tail _ (.head _)))))
      · cases hl
  have hmsg : ∀ m, Reach (declared nodeSrc).program.graph.links nodeRoot (.msg m) →
      m = .mk .node [.prim "u32" "UInt32" .varint] ∨ m = .mk .opt [.box nodeRoot] := by
    intro m hm
    simpa [nodeRoot] using hreach _ hm
  have hopt : Builds nodeSrc (.msg (.mk .opt [.box nodeRoot])) := .enum rfl fun v hv ht f hf => by
    have hv : v ∈ [_, _] := hv
    simp only [List.mem_cons, List.not_mem_nil, or_false] at hv
    rcases hv with rfl | rfl
    · cases hf
    · exact absurd ht (by simp [Derive.Spec.HasTag, Derive.Spec.items, tagAttr])
  refine C75_accepted nodeSrc_rust (fun d args hm f hf => ?_) (fun m hm => ?_)
    ⟨[.mk .node [.prim "u32" "UInt32" .varint], .mk .opt [.box nodeRoot]], fun m hm => by simpa using hmsg m hm⟩
  · rcases hmsg _ hm with h | h <;> cases h
    · have hf : f ∈ [_, _, _] := hf
      simp only [List.mem_cons, List.not_mem_nil, or_false] at hf
      rcases hf with rfl | rfl | rfl <;>
        simp [Works, AliasedBox, isParam, Written.resolve, WrittenArgs.resolve, nodeSrc, bindParams, Textual]
    · have hf : f ∈ [_] := hf
      cases List.mem_singleton.1 hf
      simp [Works, AliasedBox, isParam, Written.resolve, nodeSrc, bindParams, Textual, nodeRoot]
  · rcases hmsg _ hm with rfl | rfl
    · refine .struct rfl fun f hf => ?_
      have hf : f ∈ [_, _, _] := hf
      simp only [List.mem_cons, List.not_mem_nil, or_false] at hf
      rcases hf with rfl | rfl | rfl
      · exact .prim
      · exact hopt
      · exact .vec
    · exact hopt

/-- `Accepted` is wider than what compiles: the example of C71 has a map of `Pair<Item, Option<Shape>>`, and that is no state for Rust,
whatever bounds are written, since `Option<Shape>` is none. -/
theorem exSrc_not_rust (bounds : ExD → String → List Trait) : ¬ Rust exSrc bounds exRoot := by
  intro h
  have hS := sound_reach h .root
  have hf := sound_field h.compiles h.real (d := .root) (args := []) hS (f := ⟨[.steit [tagAttr 0]], "pairs",
        .map "u32" "UInt32" .varint (.msg .pair (.cons (.msg .item .nil) (.cons (.option (.msg .shape .nil)) .nil)))⟩) (.head _)
  have hp : Holds (bounded exSrc bounds) [] .state (rtyExp (.msg (.mk .pair [.msg (.mk .item []), .option (.msg (.mk .shape []))]))) :=
    arg₂_of_holds hf.deserialize rfl .state (by simp)
  obtain ⟨b, hb, -, hh⟩ := holds_msg.1 hp
  have hs : (bounded exSrc bounds .pair).request.state = true := show (exSrc .pair).request.state = true by decide +kernel
  have hb' : b = (bounded exSrc bounds .pair).state := by simpa [Decl.block, hs, eq_comm] using hb
  have ho := hh 1 _ "B" (bounds .pair "B") rfl rfl .state (List.mem_append_right _ (by rw [hb']; exact .head _))
  obtain ⟨asks, ha, -⟩ := holds_app.1 ho
  simp [Con.asks] at ha

end Steit.Bounds
