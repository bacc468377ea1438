import Verif.Lemmas.AsWritten
import Verif.Props.Classes

/-!
# C71: one declaration, two sides

The same declaration gives the code on the Rust side and, through metadata, the class on the C# side. C47 is about the first, C49 and C67 to
C69 about the second, each with a hypothesis about what the other one gets. Here both start from the program as it is written.
-/

namespace Steit.Gen

open Steit.Derive (derive)
open Steit.Derive.Spec (HasArg HasFlag HasTag All₂ Acceptable FieldsOk FieldOk VariantOk VariantsOk)
open Steit.Gen.Spec Steit.Spec

variable {D : Type} {P : D → Src D} {root : RTy (Inst D)}

/-! ## Metadata -/

/-- C71. If the macro accepts a declaration, the metadata it gives the generator says what is written: names, names for C#, tags, types,
in order. -/
theorem C71_metadata {d : D} {ty : Written D → Ty} (h : (derive ((P d).input ty)).1 = []) : Says (P d) (declared P) d := metadata_says h

theorem fieldsOk_types {w : Prop} {attrs : List Derive.RawAttr} {ty : Written D → Ty} (ty' : Written D → Ty) {fs : List (SrcField D)}
    (h : FieldsOk w attrs (fs.map (·.input ty))) : FieldsOk w attrs (fs.map (·.input ty')) := by
  obtain ⟨h1, h2, h3⟩ := h
  refine ⟨fun g hg => ?_, ?_, fun g hg => ?_⟩
  · obtain ⟨f, hf, rfl⟩ := List.mem_map.1 hg
    obtain ⟨a, b, c⟩ := h1 _ (List.mem_map_of_mem hf)
    exact ⟨a, b, c⟩
  · rw [List.pairwise_map] at h2 ⊢
    exact h2
  · obtain ⟨f, hf, rfl⟩ := List.mem_map.1 hg
    exact h3 (f.input ty) (List.mem_map_of_mem hf)

/-- C71. Whether the macro accepts a declaration depends on what is written only, not on what the types of fields turn out to be. -/
theorem C71_accepts_text (s : Src D) (ty ty' : Written D → Ty) (h : (derive (s.input ty)).1 = []) : (derive (s.input ty')).1 = [] := by
  rw [Derive.C47_accepts_exactly] at h ⊢
  obtain ⟨h1, h2, h3, h4⟩ := h
  cases hb : s.body with
  | struct fs =>
    rw [input_struct hb] at h1 h2 h3 h4 ⊢
    exact ⟨h1, h2, h3, fieldsOk_types ty' h4⟩
  | enum vs =>
    rw [input_enum hb] at h1 h2 h3 h4 ⊢
    refine ⟨h1, h2, h3, ?_⟩
    obtain ⟨h5, h6, h7, v, hv, h8⟩ := h4
    refine ⟨fun g hg => ?_, ?_, fun g hg => ?_, ?_⟩
    · obtain ⟨v, hv, rfl⟩ := List.mem_map.1 hg
      obtain ⟨a, b, c⟩ := h5 _ (List.mem_map_of_mem hv)
      exact ⟨a, b, fieldsOk_types ty' c⟩
    · rw [List.pairwise_map] at h6 ⊢
      exact h6
    · obtain ⟨v, hv, rfl⟩ := List.mem_map.1 hg
      exact h7 ⟨v.attrs, v.fields.map (·.input ty)⟩ (List.mem_map.2 ⟨v, hv, rfl⟩)
    · obtain ⟨v, hv', rfl⟩ := List.mem_map.1 hv
      exact ⟨⟨v.attrs, v.fields.map (·.input ty')⟩, List.mem_map.2 ⟨v, hv', rfl⟩, h8⟩

/-! ## Types -/

/-- C71. The types of accepted programs, unrolled any number of times, are those the theorems about the Rust side are for. -/
theorem C71_well_formed (hA : Accepted P root) (n : Nat) {a : RTy (Inst D)} (ha : Reach (declared P).program.graph.links root a) :
    (a.ty (unrolled P n)).WF ∧ ((a.ty (unrolled P n)).isState = true ↔ IsState P a) :=
  ⟨wf_ty (fun m hm => unrolled_wf hA n m hm) (state_reach hA n) a ha (legal_reach hA ha), state_reach hA n a ha⟩

/-- C71. They are also those the theorems about the C# client are for. -/
theorem C71_mirrored (hA : Accepted P root) (n : Nat) {a : RTy (Inst D)} (ha : Reach (declared P).program.graph.links root a) :
    Mirrored (a.ty (unrolled P n)) :=
  mirrored_ty (fun m hm => unrolled_mirrored hA n m hm) a ha (legal_reach hA ha)

/-- C71. What the macro makes of the program, and what the generator reads of it, are the same messages: unrolled often enough, the types
have the declarations of the generator down to any depth. -/
theorem C71_models (hA : Accepted P root) : ∃ N, ∀ k n a, Reach (declared P).program.graph.links root a → N * (k + 1) ≤ n →
    Models (declared P) k a (a.ty (unrolled P n)) := by
  obtain ⟨N, hN⟩ := builds_all hA
  refine ⟨N, fun k n a ha hn => models_all hA hN k N a ha (hN a ha) n ?_⟩
  have : N * (k + 1) = k * N + N := by rw [Nat.mul_add, Nat.mul_comm, Nat.mul_one]
  omega

/-! ## From the program as written to the client -/

/-- C71, with C69: the client made of the generated files reads bytes, and replays logs, as the client model does for the types the macro
makes. -/
theorem C71_client {cm : CaseMap} {setting : CSharpSetting} {texts : List Text} (hA : Accepted P root)
    (hR : Ready cm setting (declared P) root texts) : ∃ N, ∀ n a, Reach (declared P).program.graph.links root a →
      ∀ (ρ : Bytes → Str) (bs : Bytes) (l : Nat), N * (2 * bs.length + 2) ≤ n → depth (a.ty (unrolled P n)) ≤ l →
        construct (projectOf texts) l (rt (declared P).name a) = .ok (valOf _ (a.ty (unrolled P n)).csNew) ∧
        deserialize (projectOf texts) ρ l (rt (declared P).name a) bs =
          ((a.ty (unrolled P n)).csDeserialize ρ bs).map (fun (v, rest) => (valOf _ v, rest)) ∧
        (¬ Primitive a → ∀ v, replay (projectOf texts) ρ l (rt (declared P).name a) (valOf _ v) bs =
          ((a.ty (unrolled P n)).csReplay ρ v bs).map (valOf _)) := by
  obtain ⟨N, hN⟩ := C71_models hA
  refine ⟨N, fun n a ha ρ bs l hn hl => ?_⟩
  have hm := hN (2 * bs.length + 1) n a ha hn
  refine ⟨C69_constructs hR ha hm (by omega) hl, C69_reads hR ha hm ρ bs (by omega) hl, fun hp v => ?_⟩
  refine C69_replays hR ha hm ?_ ρ v bs (by omega) hl
  rw [← Bool.not_eq_true, primitive_ty (unrolled_message P n) a (legal_reach hA ha)]
  exact hp

/-- C71. From declarations to screens: a program is written, the macro accepts it and makes its types, the generator writes C# files. A
process on the Rust side changes a state of such a type; a client made of the files gets the state as it was at some time, then the log,
and shows in the end the state there is. Missing, as in C69: histories on which Rust's own replay goes wrong (`CallsSync`), an option of
something other than a primitive as the root, what C# cannot represent (`Carried`, `CsFits`). -/
theorem C71_follows_rust_partial {cm : CaseMap} {setting : CSharpSetting} {texts : List Text} (hA : Accepted P root)
    (hR : Ready cm setting (declared P) root texts) : ∃ N, ∀ k n a, Reach (declared P).program.graph.links root a → N * (k + 1) ≤ n →
      ¬ Primitive a → (∀ b, a = .option b → Primitive b) → ∀ (ρ : Bytes → Str) (m : Mode) (μ : Prog.Mem) (μ' : Nat → Prog.Mem) (id : Nat)
      (ops : List (a.ty (unrolled P n)).Op) (v : (a.ty (unrolled P n)).El) (w : World), At _ ⟨id, []⟩ v → Carried _ v →
      (encode _ v).length < 2 ^ 31 → w.loggers id = ⟨0, []⟩ → CallsSync _ m ops v w → ∀ l, depth (a.ty (unrolled P n)) ≤ l →
      ∃ snapshot v' w', (a.ty (unrolled P n)).dict.toBytesFrom m μ v = .ok snapshot ∧ calls _ m ops v w = (.ok v', w') ∧
        ((∀ e ∈ (w'.loggers id).entries, CsFits e) → ∃ bytes, (BufferLogger.mk (w'.loggers id).entries).bytes m μ' = .ok bytes ∧
          (snapshot.length < k → 2 * bytes.length < k → ∃ o c',
            deserialize (projectOf texts) ρ l (rt (declared P).name a) snapshot = .ok (o, []) ∧
            replay (projectOf texts) ρ l (rt (declared P).name a) o bytes = .ok (valOf _ c') ∧ Shows _ v' c')) := by
  obtain ⟨N, hN⟩ := C71_models hA
  refine ⟨N, fun k n a ha hn hp ho ρ m μ μ' id ops v w hv hc hlen hw hops l hl => ?_⟩
  have hL := legal_reach hA ha
  refine C69_follows_rust_partial hR ha (hN k n a ha hn) ?_ (C71_well_formed hA n ha).1 (C71_mirrored hA n ha) ?_ ρ m μ μ' id ops v w hv hc
    hlen hw hops hl
  · rw [← Bool.not_eq_true, primitive_ty (unrolled_message P n) a hL]
    exact hp
  · have key : ∀ t, a.ty (unrolled P n) = .option t → primitive t = true := by
      intro t ht
      cases a with
      | option b =>
        cases ht
        exact (primitive_ty (unrolled_message P n) b hL).2 (ho b rfl)
      | prim r c w =>
        obtain ⟨t', ht'⟩ := hL
        simp only [RTy.ty, primTy_of ht'] at ht
        subst ht
        cases ht'
      | msg m =>
        rcases unrolled_message P n m with ⟨_, _, _, h⟩ | ⟨_, _, _, _, h⟩ <;> exact absurd (h.symm.trans ht) (by simp)
      | _ => cases ht
    cases hc : a.ty (unrolled P n) with
    | option t => exact key t hc
    | _ => trivial

/-! ## An example -/

/-- `#[steit(tag = n)]`. -/
def tagAttr (n : Nat) : Derive.Nested := .attr (.nameValue "tag" (.int n))

/-- The program of `exDecls`, as written: all messages derive `State`; fields that are no states have `no_state`, variants a name for C#. -/
def exSrc : ExD → Src ExD
  | .pair => ⟨[.attr (.path "State")], [], "Pair", ["A", "B"], .struct [
      ⟨[.steit [tagAttr 0]], "first", .param "A"⟩,
      ⟨[.steit [tagAttr 1, .attr (.path "no_state")]], "rest", .vec (.param "B")⟩]⟩
  | .item => ⟨[.attr (.path "State")], [], "Item", [], .struct [
      ⟨[.steit [tagAttr 0]], "id", .prim "u32" "UInt32" .varint⟩,
      ⟨[.steit [tagAttr 1], .steit [.attr (.nameValue "no_state" (.bool true))]], "name", .prim "String" "String" .sized⟩]⟩
  | .shape => ⟨[.attr (.path "State")], [], "Shape", [], .enum [
      ⟨[.steit [tagAttr 0, .attr (.nameValue "csharp_name" (.str "Dot"))]], "Shape_Dot", []⟩,
      ⟨[.steit [tagAttr 1, .attr (.nameValue "csharp_name" (.str "Many"))]], "Shape_Many", [⟨[.steit [tagAttr 0]], "items", .list (.msg .item .nil)⟩]⟩]⟩
  | .root => ⟨[.attr (.path "State")], [], "Root", [], .struct [
      ⟨[.steit [tagAttr 0]], "pairs",
        .map "u32" "UInt32" .varint (.msg .pair (.cons (.msg .item .nil) (.cons (.option (.msg .shape .nil)) .nil)))⟩,
      ⟨[.steit [tagAttr 1, .attr (.path "no_state")]], "data", .array 3 .bytes⟩,
      ⟨[.steit [tagAttr 2, .attr (.path "no_state")]], "next", .option (.box (.msg .root .nil))⟩,
      ⟨[.steit [tagAttr 3, .attr (.path "no_state")]], "nums", .alias (.vec (.prim "u16" "UInt16" .varint))⟩]⟩

theorem exSrc_declared : declared exSrc = exDecls := by
  have h1 : ∀ d, (declared exSrc).name d = exDecls.name d := by intro d; cases d <;> decide +kernel
  have h2 : ∀ d, (declared exSrc).params d = exDecls.params d := by intro d; cases d <;> rfl
  have h3 : ∀ d, (declared exSrc).body d = exDecls.body d := by intro d; cases d <;> rfl
  have h4 : ∀ d, (declared exSrc).builtin d = exDecls.builtin d := by intro d; cases d <;> decide +kernel
  rcases hS : declared exSrc with ⟨a, b, c, e⟩
  rw [hS] at h1 h2 h3 h4
  rcases hE : exDecls with ⟨a', b', c', e'⟩
  rw [hE] at h1 h2 h3 h4
  cases funext h1; cases funext h2; cases funext h3; cases funext h4
  rfl

/-- The types the macro makes. -/
example : unrolled exSrc 3 (.mk .item []) = exItem ∧ unrolled exSrc 4 (.mk .shape []) = exShape := by
  constructor <;> rfl

theorem exSrc_accepted : Accepted exSrc exRoot := by
  have hreach : ∀ m, Reach (declared exSrc).program.graph.links exRoot (.msg m) →
      m = .mk .root [] ∨ m = .mk .pair [.msg (.mk .item []), .option (.msg (.mk .shape []))] ∨ m = .mk .item [] ∨ m = .mk .shape [] := by
    intro m hm
    rw [exSrc_declared] at hm
    have := exRoot_reach hm
    simp only [exNodes, exRoot, List.mem_cons, List.not_mem_nil, or_false, RTy.msg.injEq, reduceCtorEq, false_or] at this
    rcases this with h | h | h | h <;> simp [h]
  have hItem : Spec.Builds exSrc (.msg (.mk .item [])) := .struct rfl fun f hf => by
    have hf : f ∈ [_, _] := hf
    simp only [List.mem_cons, List.not_mem_nil, or_false] at hf
    rcases hf with rfl | rfl <;> exact .prim
  refine ⟨trivial, fun m hm ty => ?_, fun d args hm f hf => ?_, fun d args hm f hf => ?_, fun m hm => ?_, 
    ⟨[.mk .root [], .mk .pair [.msg (.mk .item []), .option (.msg (.mk .shape []))], .mk .item [], .mk .shape []], fun m hm => ?_⟩⟩
  · refine C71_accepts_text _ (fun _ => .bool) ty ?_
    rcases hreach m hm with rfl | rfl | rfl | rfl <;> decide +kernel
  · rcases hreach _ hm with h | h | h | h <;> cases h
    · have hf : f ∈ [_, _, _, _] := hf
      simp only [List.mem_cons, List.not_mem_nil, or_false] at hf
      rcases hf with rfl | rfl | rfl | rfl <;>
        simp [Legal, IsState, Written.resolve, WrittenArgs.resolve, HasArg, HasFlag, Derive.Spec.items, exSrc, Inst.decl]
      exact ⟨.uint .w16, rfl⟩
    · have hf : f ∈ [_, _] := hf
      simp only [List.mem_cons, List.not_mem_nil, or_false] at hf
      rcases hf with rfl | rfl <;>
        simp [Legal, IsState, Written.resolve, WrittenArgs.resolve, HasArg, HasFlag, Derive.Spec.items, exSrc, Inst.decl, bindParams]
    · have hf : f ∈ [_, _] := hf
      simp only [List.mem_cons, List.not_mem_nil, or_false] at hf
      rcases hf with rfl | rfl <;>
        simp [Legal, IsState, Written.resolve, WrittenArgs.resolve, HasArg, HasFlag, Derive.Spec.items, exSrc, Inst.decl]
      · exact ⟨.uint .w32, rfl⟩
      · exact ⟨Ty.string, rfl⟩
    · have hf : f ∈ [_] := hf
      cases List.mem_singleton.1 hf
      simp [Legal, IsState, Written.resolve, WrittenArgs.resolve, HasArg, exSrc, Inst.decl]
  · rcases hreach _ hm with h | h | h | h <;> cases h
    · have hf : f ∈ [_, _, _, _] := hf
      simp only [List.mem_cons, List.not_mem_nil, or_false] at hf
      rcases hf with rfl | rfl | rfl | rfl <;> simp [Works, AliasedBox, AliasedBox.boxed, isParam, Primitive, Written.resolve]
    · have hf : f ∈ [_, _] := hf
      simp only [List.mem_cons, List.not_mem_nil, or_false] at hf
      rcases hf with rfl | rfl <;> simp [Works, AliasedBox, isParam, Textual, Written.resolve, bindParams, exSrc]
    · have hf : f ∈ [_, _] := hf
      simp only [List.mem_cons, List.not_mem_nil, or_false] at hf
      rcases hf with rfl | rfl <;> simp [Works, AliasedBox, isParam, Written.resolve]
    · have hf : f ∈ [_] := hf
      cases List.mem_singleton.1 hf
      simp [Works, AliasedBox, isParam, Written.resolve]
  · rcases hreach _ hm with rfl | rfl | rfl | rfl
    · exact .struct rfl fun f hf => by
        have hf : f ∈ [_, _, _, _] := hf
        simp only [List.mem_cons, List.not_mem_nil, or_false] at hf
        rcases hf with rfl | rfl | rfl | rfl
        · exact .map
        · exact .array .bytes
        · exact .option
        · exact .vec
    · exact .struct rfl fun f hf => by
        have hf : f ∈ [_, _] := hf
        simp only [List.mem_cons, List.not_mem_nil, or_false] at hf
        rcases hf with rfl | rfl
        · exact hItem
        · exact .vec
    · exact hItem
    · exact .enum rfl fun v hv ht f hf => by
        have hv : v ∈ [_, _] := hv
        simp only [List.mem_cons, List.not_mem_nil, or_false] at hv
        rcases hv with rfl | rfl
        · cases hf
        · cases List.mem_singleton.1 hf
          exact .list
  · have := hreach m hm
    simp only [List.mem_cons, List.not_mem_nil, or_false]
    exact this

/-- Not vacuous: the program, its types, and its four files, on any bytes. -/
example : ∃ (texts : List Text) (N : Nat), texts.length = 4 ∧ ∀ (ρ : Bytes → Str) (bs : Bytes), ∃ l,
    deserialize (projectOf texts) ρ l (.message (lit! "Root") []) bs =
      ((unrolled exSrc (N * (2 * bs.length + 2)) (.mk .root [])).csDeserialize ρ bs).map (fun (v, rest) => (valOf _ v, rest)) := by
  obtain ⟨texts, hl, hR⟩ := exDecls_ready
  rw [← exSrc_declared] at hR
  obtain ⟨N, hN⟩ := C71_client exSrc_accepted hR
  refine ⟨texts, N, hl, fun ρ bs => ⟨depth (exRoot.ty (unrolled exSrc (N * (2 * bs.length + 2)))), ?_⟩⟩
  have h := (hN _ exRoot .root ρ bs _ (Nat.le_refl _) (Nat.le_refl _)).2.1
  rw [exSrc_declared] at h
  exact h

/-- Not vacuous: its types have the declarations the generator works with. -/
example : ∃ N, ∀ k, Models exDecls k exRoot (unrolled exSrc (N * (k + 1)) (.mk .root [])) := by
  obtain ⟨N, hN⟩ := C71_models exSrc_accepted
  exact ⟨N, fun k => exSrc_declared ▸ hN k _ exRoot .root (Nat.le_refl _)⟩

/-- Not vacuous: the metadata of `Shape`. -/
example : Says (exSrc .shape) exDecls .shape :=
  exSrc_declared ▸ C71_metadata (P := exSrc) (ty := fun _ => .bool) (by decide +kernel)

/-- The program of `handDecls`, as written. -/
def handSrc : HandD → Src HandD
  | .hand => ⟨[.attr (.path "State")], [], "Hand", [], .struct [
      ⟨[.steit [tagAttr 0]], "cards", .list (.prim "u8" "Byte" .varint)⟩,
      ⟨[.steit [tagAttr 1]], "piles", .map "u8" "Byte" .varint (.list (.prim "u8" "Byte" .varint))⟩,
      ⟨[.steit [tagAttr 2]], "mood", .msg .mood .nil⟩]⟩
  | .mood => ⟨[.attr (.path "State")], [], "Mood", [], .enum [
      ⟨[.steit [tagAttr 0, .attr (.nameValue "csharp_name" (.str "Calm"))], .steit [.attr (.path "no_size_cache")]], "Mood_Calm",
        [⟨[.steit [tagAttr 0]], "level", .prim "u32" "UInt32" .varint⟩]⟩,
      ⟨[.steit [tagAttr 1, .attr (.nameValue "csharp_name" (.str "Angry"))]], "Mood_Angry",
        [⟨[.steit [tagAttr 5]], "marks", .list (.prim "u8" "Byte" .varint)⟩]⟩]⟩

theorem handSrc_declared : declared handSrc = handDecls := by
  have h1 : ∀ d, (declared handSrc).name d = handDecls.name d := by intro d; cases d <;> decide +kernel
  have h2 : ∀ d, (declared handSrc).params d = handDecls.params d := by intro d; cases d <;> rfl
  have h3 : ∀ d, (declared handSrc).body d = handDecls.body d := by intro d; cases d <;> rfl
  have h4 : ∀ d, (declared handSrc).builtin d = handDecls.builtin d := by intro d; cases d <;> decide +kernel
  rcases hS : declared handSrc with ⟨a, b, c, e⟩
  rw [hS] at h1 h2 h3 h4
  rcases hE : handDecls with ⟨a', b', c', e'⟩
  rw [hE] at h1 h2 h3 h4
  cases funext h1; cases funext h2; cases funext h3; cases funext h4
  rfl

/-- The type the macro makes is the one of the histories of C24. -/
theorem handSrc_type (n : Nat) : RTy.ty (unrolled handSrc (n + 2)) (.msg (.mk .hand [])) = hTy := rfl

theorem handSrc_accepted : Accepted handSrc (.msg (.mk .hand [])) := by
  have hreach : ∀ a, Reach (declared handSrc).program.graph.links (.msg (.mk .hand [])) a → a ∈ ([.msg (.mk .hand []), .msg (.mk .mood []),
      .list (.prim "u8" "Byte" .varint), .map "u8" (.list (.prim "u8" "Byte" .varint)), .prim "u8" "Byte" .varint,
      .prim "u32" "UInt32" .varint] : List (RTy (Inst HandD))) := by
    intro a ha
    rw [handSrc_declared] at ha
    induction ha with
    | root => exact .head _
    | link _ hl ih =>
      simp only [List.mem_cons, List.not_mem_nil, or_false] at ih
      rcases ih with rfl | rfl | rfl | rfl | rfl | rfl <;>
        simp [Program.graph, Declarations.program, handDecls, Inst.decl, Inst.args, Body.fields, Written.resolve, WrittenArgs.resolve,
          bindParams] at hl <;> simp <;> rcases hl with rfl | rfl | rfl <;> simp
  have hmsg : ∀ m, Reach (declared handSrc).program.graph.links (.msg (.mk .hand [])) (.msg m) → m = .mk .hand [] ∨ m = .mk .mood [] := by
    intro m hm
    simpa using hreach _ hm
  have hMood : Spec.Builds handSrc (.msg (.mk .mood [])) := .enum rfl fun v hv ht f hf => by
    have hv : v ∈ [_, _] := hv
    simp only [List.mem_cons, List.not_mem_nil, or_false] at hv
    rcases hv with rfl | rfl <;> cases List.mem_singleton.1 hf
    · exact .prim
    · exact .list
  refine ⟨trivial, fun m hm ty => ?_, fun d args hm f hf => ?_, fun d args hm f hf => ?_, fun m hm => ?_,
    ⟨[.mk .hand [], .mk .mood []], fun m hm => by simpa using hmsg m hm⟩⟩
  · refine C71_accepts_text _ (fun _ => .bool) ty ?_
    rcases hmsg m hm with rfl | rfl <;> decide +kernel
  · have hu8 : ∃ t, primitiveMeta t = some (.primitive ⟨"u8", some "Byte"⟩ .varint) := ⟨.uint .w8, rfl⟩
    have hu32 : ∃ t, primitiveMeta t = some (.primitive ⟨"u32", some "UInt32"⟩ .varint) := ⟨.uint .w32, rfl⟩
    rcases hmsg _ hm with h | h <;> cases h
    · have hf : f ∈ [_, _, _] := hf
      simp only [List.mem_cons, List.not_mem_nil, or_false] at hf
      rcases hf with rfl | rfl | rfl <;>
        simp [Legal, IsState, Written.resolve, WrittenArgs.resolve, HasArg, handSrc, Inst.decl, hu8]
    · have hf : f ∈ [_, _] := hf
      simp only [List.mem_cons, List.not_mem_nil, or_false] at hf
      rcases hf with rfl | rfl <;> simp [Legal, IsState, Written.resolve, hu8, hu32]
  · rcases hmsg _ hm with h | h <;> cases h
    · have hf : f ∈ [_, _, _] := hf
      simp only [List.mem_cons, List.not_mem_nil, or_false] at hf
      rcases hf with rfl | rfl | rfl <;> simp [Works, AliasedBox, isParam, Written.resolve]
    · have hf : f ∈ [_, _] := hf
      simp only [List.mem_cons, List.not_mem_nil, or_false] at hf
      rcases hf with rfl | rfl <;> simp [Works, AliasedBox, isParam, Written.resolve]
  · rcases hmsg _ hm with rfl | rfl
    · exact .struct rfl fun f hf => by
        have hf : f ∈ [_, _, _] := hf
        simp only [List.mem_cons, List.not_mem_nil, or_false] at hf
        rcases hf with rfl | rfl | rfl
        · exact .list
        · exact .map
        · exact hMood
    · exact hMood

/-- Not vacuous: the history of C24's example, from the program as written to the client made of its files. -/
example : ∃ texts : List Text, ∀ (ρ : Bytes → Str) (μ : Prog.Mem) (μ' : Nat → Prog.Mem), ∃ snapshot bytes v' w' o c',
    calls hTy .debug hOps (hVal [] [] (hA 0)) hWorld = (.ok v', w') ∧
    hTy.dict.toBytesFrom .debug μ (hVal [] [] (hA 0)) = .ok snapshot ∧
    (BufferLogger.mk (w'.loggers 4).entries).bytes .debug μ' = .ok bytes ∧ (w'.loggers 4).entries.length = 7 ∧
    deserialize (projectOf texts) ρ (depth hTy) (.message (lit! "Hand") []) snapshot = .ok (o, []) ∧
    replay (projectOf texts) ρ (depth hTy) (.message (lit! "Hand") []) o bytes = .ok (valOf hTy c') ∧ Shows hTy v' c' := by
  obtain ⟨texts, hR⟩ := handDecls_ready
  rw [← handSrc_declared] at hR
  obtain ⟨N, hN⟩ := C71_follows_rust_partial handSrc_accepted hR
  refine ⟨texts, fun ρ μ μ' => ?_⟩
  have key := fun k => hN k (N * (k + 1) + 2) (.msg (.mk .hand [])) .root (by omega) (fun h => h) (fun b h => by cases h) ρ .debug μ μ' 4
    hOps (hVal [] [] (hA 0)) hWorld (hVal_at 4) ((carried_init hTy).1 ⟨4, []⟩) (by show (encode hTy _).length < _; decide +kernel) rfl
    (hOps_ok hWorld) (depth hTy) (Nat.le_refl _)
  simp only [handSrc_type, handSrc_declared] at key
  obtain ⟨snapshot, v', w', h1, h2, h3⟩ := key 0
  have he : (w'.loggers 4).entries = ((calls hTy .debug hOps (hVal [] [] (hA 0)) hWorld).2.loggers 4).entries := by rw [h2]
  have hfit : ∀ e ∈ (w'.loggers 4).entries, CsFits e := by
    rw [he]
    unfold CsFits
    decide +kernel
  obtain ⟨bytes, h4, _⟩ := h3 hfit
  obtain ⟨snapshot', v'', w'', h1', h2', h3'⟩ := key (snapshot.length + 2 * bytes.length + 1)
  cases h1.symm.trans h1'
  cases h2.symm.trans h2'
  obtain ⟨bytes', h4', h5⟩ := h3' hfit
  cases h4.symm.trans h4'
  obtain ⟨o, c', h6, h7, h8⟩ := h5 (by omega) (by omega)
  refine ⟨snapshot, bytes, v', w', o, c', h2, h1, h4, ?_, h6, h7, h8⟩
  rw [he]
  decide +kernel

end Steit.Gen
