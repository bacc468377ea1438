import Verif.Lemmas.Collect

/-!
# C48: collecting the messages a type refers to

`collect_meta` walks the graph of types below a root and collects messages by name; `generate` writes one file for each. The walk ends,
and collects nothing but messages of types that can be reached. It collects all of them where equal types (as metadata) have equal
messages behind them. Types in Rust do not always: `Box<T>` has the type of `T` but the links of a box, and types of the same name in
different modules have equal types. Boxes do no harm where they are used for recursion, that is, inside of what they contain.
-/

namespace Steit.Gen

open Spec

variable {ν : Type} {G : Graph ν} {core : ν → ν} {getName : MessageMeta → String} {root : ν}

/-- C48. Collecting ends on every finite type graph, cycles or not: recursion no deeper than the number of nodes plus one, and the
result does not depend on how much deeper it could go. -/
theorem C48_terminates (getName : MessageMeta → String) {nodes : List ν} (h : ∀ n, Reach G.links root n → n ∈ nodes) :
    ∃ col, ∀ fuel, nodes.length < fuel → collectMeta G getName fuel root = some col := by
  have hlen : unseen G nodes ⟨[], []⟩ ≤ nodes.length := by
    unfold unseen
    exact Nat.le_trans (List.length_filter_le _ _) (by simp)
  obtain ⟨r, hr⟩ := visit_ends (getName := getName) h (nodes.length + 1) root ⟨[], []⟩ .root (by omega)
  exact ⟨r.collected, fun fuel hf => by unfold collectMeta; rw [visit_le hf hr]; rfl⟩

/-! ## What is collected -/

/-- C48. Only messages the root refers to are collected, each under its name, no name twice. On every graph. -/
theorem C48_only_reachable {fuel : Nat} {col : List (String × MessageMeta)} (h : collectMeta G getName fuel root = some col) :
    (col.map (·.1)).Nodup ∧ ∀ k m, (k, m) ∈ col → k = getName m ∧ Refers G root m := by
  unfold collectMeta at h
  obtain ⟨r, hr, rfl⟩ := Option.map_eq_some_iff.1 h
  refine visit_inv (root := root) (Inv := fun s => (s.collected.map (·.1)).Nodup ∧
    ∀ k m, (k, m) ∈ s.collected → k = getName m ∧ Refers G root m) ?_ ?_ fuel root _ r .root hr ⟨by simp, by simp⟩
  · rintro n s hn ⟨h1, h2⟩
    cases hm : G.msg n with
    | none => exact ⟨h1, h2⟩
    | some m =>
      simp only [collectMsg, orInsert]
      split
      · exact ⟨h1, h2⟩
      · rename_i hk
        refine ⟨?_, ?_⟩
        · rw [List.map_append, List.nodup_append]
          exact ⟨h1, by simp, fun a ha b hb => by
            rintro rfl
            simp only [List.map_cons, List.map_nil, List.mem_singleton] at hb
            subst hb
            exact hk ha⟩
        · intro k m' hmem
          rcases List.mem_append.1 hmem with hmem | hmem
          · exact h2 k m' hmem
          · cases List.mem_singleton.1 hmem
            exact ⟨rfl, n, hn, hm⟩
  · intro n s _ hs; exact hs

/-- C48, where types tell what is behind them: every message the root refers to is collected. -/
theorem C48_complete_partial (ht : TypesTell G core root) {fuel : Nat} {col : List (String × MessageMeta)}
    (h : collectMeta G getName fuel root = some col) {m : MessageMeta} (hm : Refers G root m) : getName m ∈ col.map (·.1) := by
  unfold collectMeta at h
  obtain ⟨r, hr, rfl⟩ := Option.map_eq_some_iff.1 h
  obtain ⟨n, hn, hmsg⟩ := hm
  refine (visit_all ht hr hn).2 m ?_
  by_cases hc : core n = n
  · rw [hc]; exact hmsg
  · rw [(ht.stands n hn hc).1] at hmsg; cases hmsg

/-- C48, where moreover messages have distinct names: exactly the messages referred to are collected, each once. -/
theorem C48_exactly_once_partial (ht : TypesTell G core root)
    (hd : ∀ m m', Refers G root m → Refers G root m' → getName m = getName m' → m = m') {fuel : Nat}
    {col : List (String × MessageMeta)} (h : collectMeta G getName fuel root = some col) :
    (∀ m, m ∈ col.map (·.2) ↔ Refers G root m) ∧ (col.map (·.2)).Nodup := by
  obtain ⟨h1, h2⟩ := C48_only_reachable h
  refine ⟨fun m => ⟨fun hm => ?_, fun hm => ?_⟩, ?_⟩
  · obtain ⟨⟨k, m'⟩, he, rfl⟩ := List.mem_map.1 hm
    exact (h2 k m' he).2
  · obtain ⟨⟨k, m'⟩, he, hk⟩ := List.mem_map.1 (C48_complete_partial ht h hm)
    obtain ⟨hk', hr⟩ := h2 k m' he
    simp only at hk
    subst hk
    cases hd m m' hm hr hk'
    exact List.mem_map.2 ⟨_, he, rfl⟩
  · rw [List.Nodup, List.pairwise_map] at h1 ⊢
    refine List.Pairwise.imp_of_mem ?_ h1
    rintro ⟨k, m⟩ ⟨k', m'⟩ hm hm' hne rfl
    exact hne ((h2 k m hm).1.trans (h2 k' m hm').1.symm)

/-- C48, down to the files: where types tell what is behind them and messages have distinct names, a file is written for exactly the
messages referred to that are neither skipped by name nor (if builtins are skipped) built in. -/
theorem C48_generated_partial (ht : TypesTell G core root)
    (hd : ∀ m m', Refers G root m → Refers G root m' → getName m = getName m' → m = m') {fuel : Nat}
    {col : List (String × MessageMeta)} (h : collectMeta G getName fuel root = some col) (skipBuiltins : Bool)
    (skipNames : List String) :
    ((toGenerate skipBuiltins skipNames col).map (·.1)).Nodup ∧
    ∀ name m, (name, m) ∈ toGenerate skipBuiltins skipNames col ↔
      Refers G root m ∧ name = getName m ∧ name ∉ skipNames ∧ (skipBuiltins = true → m.isBuiltin = false) := by
  obtain ⟨h1, h2⟩ := C48_only_reachable h
  have h3 := (C48_exactly_once_partial ht hd h).1
  refine ⟨?_, fun name m => ?_⟩
  · exact List.Nodup.sublist (List.filter_sublist.map _) h1
  · simp only [toGenerate, List.mem_filter, Bool.and_eq_true, Bool.not_eq_true', Bool.and_eq_false_iff, decide_eq_true_eq]
    constructor
    · rintro ⟨hm, hb, hs⟩
      obtain ⟨hk, hr⟩ := h2 _ _ hm
      refine ⟨hr, hk, hs, fun he => ?_⟩
      rcases hb with hb | hb
      · exact hb
      · rw [he] at hb; cases hb
    · rintro ⟨hr, rfl, hs, hb⟩
      obtain ⟨⟨k, m'⟩, he, hm⟩ := List.mem_map.1 ((h3 m).2 hr)
      cases hm
      cases (h2 _ _ he).1
      refine ⟨he, ?_, hs⟩
      cases skipBuiltins with
      | true => exact .inl (hb rfl)
      | false => exact .inr rfl

/-! ## Rust types -/

variable {M : Type} {P : Program M}

/-- C48 for Rust programs that use `Box` for recursion only and whose messages can be told apart by name: types tell what is behind
them, so `C48_exactly_once_partial` and `C48_generated_partial` apply. -/
theorem C48_types_tell_recursive_boxes (h : Told P) {root : RTy M} (hb : BoxesRecur P root) : TypesTell P.graph unboxed root where
  same := unboxed_unboxed
  type := unboxed_type
  stands n hn hne := by
    obtain ⟨u, rfl⟩ := box_of_unboxed hne
    refine ⟨rfl, fun c hc => ?_, fun passed hw => hb u passed hw⟩
    cases List.mem_singleton.1 hc
    rfl
  tell a b ha hb' hca hcb hab := by
    have key := (told_msg h hca hcb hab).2
    generalize P.graph.links a = la at key
    generalize P.graph.links b = lb at key
    induction la generalizing lb with
    | nil => cases lb with
      | nil => rfl
      | cons => cases key
    | cons x la ih => cases lb with
      | nil => cases key
      | cons y lb =>
        simp only [List.map_cons, List.cons.injEq] at key ⊢
        refine ⟨?_, ih lb key.2⟩
        exact Prod.ext key.1 (told_msg h (unboxed_unboxed x) (unboxed_unboxed y)
          (by rw [unboxed_type, unboxed_type]; exact key.1)).1

/-- C48 for Rust programs without `Box` whose messages can be told apart by name. -/
theorem C48_types_tell_without_box (h : Told P) (hf : ∀ m, ∀ t ∈ P.fields m, NoBox t) {root : RTy M} (hr : NoBox root) :
    TypesTell P.graph unboxed root := by
  refine C48_types_tell_recursive_boxes h fun t passed hw => ?_
  have hn : ∀ n, Reach P.graph.links root n → NoBox n := by
    intro n hn
    induction hn with
    | root => exact hr
    | link _ hl ih => exact links_noBox hf ih hl
  cases hn _ (Walk.reach hw)

/-! ## Examples and counterexamples -/

/-- Messages numbered, named, without type parameters. -/
def exProgram (names : Nat → String) (fields : Nat → List (RTy Nat)) : Program Nat where
  name i := ⟨names i, none⟩
  args _ := []
  message i := .struct ⟨⟨names i, none⟩, [], [], false⟩
  fields := fields

def exNames (i : Nat) : String := if i = 0 then "A" else if i = 1 then "B" else "C"

/-- `struct A { xs: List<A>, b: B }`, `struct B { c: C, as: Vec<A> }`, `struct C { }`: a cycle. -/
def cyclic : Program Nat := exProgram exNames fun i =>
  if i = 0 then [.list (.msg 0), .msg 1] else if i = 1 then [.msg 2, .vec (.msg 0)] else []

/-- The nodes reached from `A`. -/
def cyclicNodes : List (RTy Nat) := [.msg 0, .list (.msg 0), .msg 1, .msg 2, .vec (.msg 0)]

theorem cyclic_reach (n : RTy Nat) (h : Reach cyclic.graph.links (.msg 0) n) : n ∈ cyclicNodes := by
  induction h with
  | root => exact .head _
  | link _ hl ih =>
    simp only [cyclicNodes, List.mem_cons, List.not_mem_nil, or_false] at ih ⊢
    rcases ih with rfl | rfl | rfl | rfl | rfl <;>
      simp [Program.graph, cyclic, exProgram] at hl <;> first
        | (rcases hl with rfl | rfl <;> simp; done)
        | (subst hl; simp; done)

/-- Programs of this kind can be told apart where fields depend on names only. -/
theorem ex_told {fields : Nat → List (RTy Nat)} (h : ∀ i j, exNames i = exNames j → fields i = fields j) : Told (exProgram exNames fields) := by
  refine ⟨fun m m' he _ => ?_, fun m => ?_⟩
  · have he : exNames m = exNames m' := by simpa [exProgram] using he
    simp only [exProgram, he, h m m' he, and_self]
  · simp only [exProgram, exNames]
    split
    · decide
    · split <;> decide

theorem exNames_eq {α : Type} {x y z : α} {i j : Nat} (h : exNames i = exNames j) :
    (if i = 0 then x else if i = 1 then y else z) = (if j = 0 then x else if j = 1 then y else z) := by
  unfold exNames at h
  split at h <;> split at h <;> simp_all <;> split at h <;> simp_all

theorem cyclic_tells : TypesTell cyclic.graph unboxed (.msg 0) := by
  refine C48_types_tell_without_box (ex_told fun i j h => exNames_eq h) (fun m t ht => ?_) .msg
  simp only [cyclic, exProgram] at ht
  split at ht
  · simp only [List.mem_cons, List.not_mem_nil, or_false] at ht
    rcases ht with rfl | rfl
    · exact .list .msg
    · exact .msg
  · split at ht
    · simp only [List.mem_cons, List.not_mem_nil, or_false] at ht
      rcases ht with rfl | rfl
      · exact .msg
      · exact .vec .msg
    · cases ht

/-- `struct A { left: Option<Box<A>>, right: Option<Box<A>>, b: B }`, `struct B { c: C }`, `struct C { }`: a tree. -/
def tree : Program Nat := exProgram exNames fun i =>
  if i = 0 then [.option (.box (.msg 0)), .option (.box (.msg 0)), .msg 1] else if i = 1 then [.msg 2] else []

/-- Of the nodes of `tree`, only the options lead to a box, and only `A` leads to an option. -/
theorem tree_boxes : BoxesRecur tree (.msg 0) := by
  have hreach : ∀ n, Reach tree.graph.links (.msg 0) n →
      n ∈ ([.msg 0, .option (.box (.msg 0)), .box (.msg 0), .msg 1, .msg 2] : List (RTy Nat)) := by
    intro n h
    induction h with
    | root => exact .head _
    | link _ hl ih =>
      simp only [List.mem_cons, List.not_mem_nil, or_false] at ih ⊢
      rcases ih with rfl | rfl | rfl | rfl | rfl <;> simp [Program.graph, tree, exProgram] at hl
      · rcases hl with rfl | rfl <;> simp
      · subst hl; simp
      · subst hl; simp
      · subst hl; simp
  intro t passed hw
  have ht := hreach _ (Walk.reach hw)
  simp only [List.mem_cons, List.not_mem_nil, or_false, reduceCtorEq, false_or, RTy.box.injEq] at ht
  subst ht
  cases hw with
  | @link passed n _ hw hl =>
    have hn := hreach _ (Walk.reach hw)
    simp only [List.mem_cons, List.not_mem_nil, or_false] at hn
    rcases hn with rfl | rfl | rfl | rfl | rfl <;> simp [Program.graph, tree, exProgram] at hl
    cases hw with
    | @link passed n _ hw hl =>
      have hn := hreach _ (Walk.reach hw)
      simp only [List.mem_cons, List.not_mem_nil, or_false] at hn
      rcases hn with rfl | rfl | rfl | rfl | rfl <;> simp [Program.graph, tree, exProgram] at hl
      exact .tail _ (.head _)

example : TypesTell tree.graph unboxed (.msg 0) ∧
    (collectMeta tree.graph MessageMeta.csharpName 6 (.msg 0)).map (·.map (·.1)) = some ["A", "B", "C"] :=
  ⟨C48_types_tell_recursive_boxes (ex_told fun i j h => exNames_eq h) tree_boxes, by decide +kernel⟩

example : TypesTell cyclic.graph unboxed (.msg 0) ∧
    (∀ m m', Refers cyclic.graph (.msg 0) m → Refers cyclic.graph (.msg 0) m' → m.csharpName = m'.csharpName → m = m') ∧
    (collectMeta cyclic.graph MessageMeta.csharpName 6 (.msg 0)).map (·.map (·.1)) = some ["A", "B", "C"] := by
  refine ⟨cyclic_tells, ?_, by decide +kernel⟩
  rintro m m' ⟨a, ha, hm⟩ ⟨b, hb, hm'⟩ h
  have ha := cyclic_reach a ha
  have hb := cyclic_reach b hb
  simp only [cyclicNodes, List.mem_cons, List.not_mem_nil, or_false] at ha hb
  rcases ha with rfl | rfl | rfl | rfl | rfl <;> rcases hb with rfl | rfl | rfl | rfl | rfl <;>
    simp [Program.graph, cyclic, exProgram] at hm hm' <;> subst hm <;> subst hm' <;> first | rfl | (revert h; decide +kernel)

/-- Programs whose messages have one name each, other than the library's, can be told apart. -/
example : Told (M := Fin 3) ⟨fun i => ⟨exNames i, none⟩, fun _ => [], fun i => .struct ⟨⟨exNames i, none⟩, [], [], false⟩,
    fun i => if i = 0 then [.list (.msg 0), .msg 1] else if i = 1 then [.msg 2, .vec (.msg 0)] else []⟩ := by
  refine ⟨fun m m' h _ => ?_, by decide⟩
  have : m = m' := by revert m m'; decide
  subst this
  exact ⟨rfl, rfl⟩

/-- `struct A { b: Box<B> }`, `struct B { c: C }`, `struct C { }`. -/
def boxed : Program Nat := exProgram exNames fun i => if i = 0 then [.box (.msg 1)] else if i = 1 then [.msg 2] else []

/-- C48 is false of the code: `C` is reachable, but `Box<B>` marks the type `B` as visited before `B` itself is. -/
theorem C48_behind_a_box_false : ∃ (P : Program Nat) (root : RTy Nat) (m : MessageMeta), Refers P.graph root m ∧
    ∀ fuel, 4 ≤ fuel → ∃ col, collectMeta P.graph MessageMeta.csharpName fuel root = some col ∧ m ∉ col.map (·.2) := by
  refine ⟨boxed, .msg 0, boxed.message 2, ⟨.msg 2, ?_, rfl⟩, ?_⟩
  · exact .link (.link (.link .root (n := .box (.msg 1)) (.head _)) (n := .msg 1) (.head _)) (.head _)
  · intro fuel hf
    have h : visit boxed.graph MessageMeta.csharpName 4 (.msg 0) ⟨[], []⟩ =
        some ⟨[boxed.graph.type (.msg 1), boxed.graph.type (.msg 0)], [("A", boxed.message 0), ("B", boxed.message 1)]⟩ := by rfl
    refine ⟨_, by unfold collectMeta; rw [visit_le hf h]; rfl, by decide +kernel⟩

/-- `mod x { struct N { } }`, `mod y { struct N { b: B } }`, `struct A { x: x::N, y: y::N }`. -/
def homonyms : Program Nat where
  name i := ⟨if i = 0 then "A" else if i = 3 then "B" else "N", none⟩
  args _ := []
  message i := .struct ⟨⟨if i = 0 then "A" else if i = 3 then "B" else "N", none⟩, [],
    if i = 2 then [⟨⟨"b", none⟩, .type (.ref ⟨"B", none⟩ .nil), 0#32⟩] else [], false⟩
  fields i := if i = 0 then [.msg 1, .msg 2] else if i = 2 then [.msg 3] else []

/-- C48 is false of the code also where types in different modules have the same name: the second is left out, with everything
behind it. -/
theorem C48_same_name_false : ∃ (P : Program Nat) (root : RTy Nat) (m m' : MessageMeta), Refers P.graph root m ∧ Refers P.graph root m' ∧
    ∀ fuel, 3 ≤ fuel → ∃ col, collectMeta P.graph MessageMeta.csharpName fuel root = some col ∧ m ∉ col.map (·.2) ∧
      m' ∉ col.map (·.2) := by
  refine ⟨homonyms, .msg 0, homonyms.message 2, homonyms.message 3, ⟨.msg 2, ?_, rfl⟩, ⟨.msg 3, ?_, rfl⟩, ?_⟩
  · exact .link .root (.tail _ (.head _))
  · exact .link (.link .root (n := .msg 2) (.tail _ (.head _))) (.head _)
  · intro fuel hf
    have h : visit homonyms.graph MessageMeta.csharpName 3 (.msg 0) ⟨[], []⟩ =
        some ⟨[homonyms.graph.type (.msg 1), homonyms.graph.type (.msg 0)], [("A", homonyms.message 0), ("N", homonyms.message 1)]⟩ := by rfl
    refine ⟨_, by unfold collectMeta; rw [visit_le hf h]; rfl, by decide +kernel, by decide +kernel⟩

end Steit.Gen
